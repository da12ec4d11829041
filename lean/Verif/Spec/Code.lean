import Verif.Model.Code
import Verif.Spec.Paths
import Mathlib.Data.List.Forall2

/-!
# Specification of code tags
-/

namespace Verif.Code

open Verif Verif.Utils Verif.Paths Verif.Attrs Verif.Formats Verif.Render
open Verif.AddFile (Search)

/-- The lines of a text that are not empty, without the spaces around the text. -/
def linesOf (c : Search) (s : Str) : List Str := (splitlines c.brk (strip c.sp s)).filter fun l => l ≠ []

/-- The file a line names: the first place, of the path itself and the search paths, where there is one. Spaces around the name do not
count. -/
def fileOf (c : Search) (line : Str) : Option Path :=
  (locations (parse ((splitlines c.brk (strip c.sp line)).head?.getD [])) c.paths).find? (isThere c.isFile)

/-- The texts one after the other, each on lines of its own. -/
inductive OnLines : List Str → Str → Prop
  | one (s : Str) : OnLines [s] s
  | more (s : Str) {l : List Str} {t : Str} : OnLines l t → OnLines (s :: l) (s ++ '\n' :: t)

/-- The code that a tag with the text `s` shows: the texts of the files named by its lines if there are any, or else the text. -/
inductive Shows (c : Search) (read : Path → Option Str) (s : Str) : Str → Prop
  | text : (∀ l ∈ linesOf c s, fileOf c l = none) → Shows c read s s
  | files (texts : List Str) (t : Str) : (linesOf c s).filterMap (fileOf c) ≠ [] →
      List.Forall₂ (fun p x => read p = some x) ((linesOf c s).filterMap (fileOf c)) texts → OnLines texts t → Shows c read s t

/-- There is a lexer for the name of a language. -/
def Known {L : Type} (py : Pygments L) (title : Str → Str) (k : Str) : Prop := title k ++ "Lexer".toList ∈ py.names

/-- The lexer of a tag: that of the first positional attribute for which there is one, or else the one guessed. -/
inductive LexerOf {L : Type} (py : Pygments L) (title : Str → Str) (d : ADict) (s : Str) : L → Prop
  | named (pre post : ADict) (k : Str) (l : L) : d = pre ++ (k, .pos .string) :: post →
      (∀ k', (k', AVal.pos .string) ∈ pre → ¬ Known py title k') → Known py title k → py.byName k = some l → LexerOf py title d s l
  | guessed (l : L) : (∀ k, (k, AVal.pos .string) ∈ d → ¬ Known py title k) → py.guess s = some l → LexerOf py title d s l

/-- The attributes of a tag with those of its kind: a tag for a language has the language as its last attribute if it does not have it. -/
def Extended (k : Kind) (d d' : ADict) : Prop :=
  match k with
  | .code => d' = d
  | .python => d' = d.set "python".toList (.pos .string)
  | .html => d' = d.set "html".toList (.pos .string)
  | .ruby => d' = d.set "ruby".toList (.pos .string)
  | .java => d' = d.set "java".toList (.pos .string)
  | .javascript => d' = d.set "javascript".toList (.pos .string)
  | .dm => d' = d.set "dm".toList (.pos .string)

end Verif.Code
