import Verif.Spec.Paths
import Verif.Spec.Builder
import Verif.Model.AddFile

/-!
# Specification of the files of images
-/

namespace Verif.AddFile

open Verif Verif.Paths Verif.Builder

/-- The documents of a target can show files with these extensions. -/
inductive Shows : Str → List Str → Prop
  | html : Shows "html".toList [".css".toList, ".svg".toList, ".png".toList]
  | xhtml : Shows "xhtml".toList [".css".toList, ".svg".toList, ".png".toList]
  | tex : Shows "tex".toList [".pdf".toList, ".png".toList]

/-- There is a builder that makes files with one extension from those with another. -/
def Convertible (clss : List Cls) (i o : Str) : Prop :=
  ∃ k ∈ clss, k.available = true ∧ k.active = true ∧ k.inExt = i ∧ k.outExt = o

/-- An extension with its period, or nothing. -/
def extension (e : Str) : Str := if e = [] then [] else '.' :: e

/-- The directory of a file made from the file `d/n`, below the directory of the target: in the media directory, unless the text of the file
starts with that already. -/
def placeOf (env : Env) (d : Path) (n : Str) : Path :=
  if env.mediaPath.getD [] ≠ [] ∧ ¬ env.mediaPath.getD [] <+: toStr (child d n) then div (parse (env.mediaPath.getD [])) d else d

/-- `b` is as `a`, with one more build `x` at the end of those of `t`. -/
def OneMore (a b : Dict Str Target) (t : Str) (x : Build) : Prop :=
  (∀ u, u ≠ t → b.get? u = a.get? u) ∧
    ∃ y, a.get? t = some y ∧ b.get? t = some ⟨y.useCache, y.parallel, y.builds ++ [x]⟩

/-- How an attribute is passed to a builder: with its value, as a file that it names, as a text, or (to copy) as a path. -/
inductive Passed (isFile : Path → Except PathError Bool) (copy : Bool) : Str × Attrs.AVal → Arg → Prop
  | value (n v : Str) : Passed isFile copy (n, .str v) (.pair n v)
  | found (n : Str) (i : Attrs.PType) (p : PyPath) : isFile p.full = .ok true → Passed isFile copy (n, .pos i) (.path p)
  | text (n : Str) (i : Attrs.PType) : copy = false → Passed isFile copy (n, .pos i) (.text n)
  | asPath (n : Str) (i : Attrs.PType) : copy = true → Passed isFile copy (n, .pos i) (.path (.plain (parse n)))

end Verif.AddFile
