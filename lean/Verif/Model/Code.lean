import Verif.Model.AddFile
import Verif.Model.Render

/-!
# Model of code tags

Models `/repo/src/disseminate/tags/code.py`.

Simplifications: the content is a text (the contents of these tags are not processed); Pygments is not modelled: its lexers, its guess and
what it makes of a text are parameters, and the html it makes is an element already; `read` gives the text of a file, `none` for an
exception. That these tags are replaced by others of the same name in a text is in `Model/Page`.
-/

namespace Verif.Code

open Verif Verif.Paths Verif.Attrs Verif.Formats Verif.Render
open Verif.AddFile (Search)

/-- The exceptions: of paths, of reading a file, of Pygments, and of making an element. -/
inductive Err
  | path (e : PathError) | read | pygments | element (e : RErr)
deriving Repr, DecidableEq

/-- `[file.read_text() for file in files]` (`tags/code.py:33`). -/
def readAll (read : Path → Option Str) : List PyPath → Except Err (List Str)
  | [] => .ok []
  | p :: ps => match read p.full with
    | none => .error .read
    | some s => (readAll read ps).map (s :: ·)

/-- The content after `Code.__init__` (`tags/code.py:26-34`). -/
def content (c : Search) (read : Path → Option Str) (s : Str) : Except Err Str :=
  match findFiles c.sp c.brk c.isFile s c.paths with
  | .error e => .error (.path e)
  | .ok files =>
    if files.length > 0 then (readAll read files).map (join ['\n'])
    else .ok s

/-- The tags of this module. -/
inductive Kind
  | code | python | html | ruby | java | javascript | dm
deriving Repr, DecidableEq

/-- The positional attribute that the tag adds (`tags/code.py:89-134`). -/
def Kind.language : Kind → Option Str
  | .code => none
  | .python => some "python".toList
  | .html => some "html".toList
  | .ruby => some "ruby".toList
  | .java => some "java".toList
  | .javascript => some "javascript".toList
  | .dm => some "dm".toList

/-- The attributes after `__init__` (`tags/code.py:89-134`). -/
def attributes (k : Kind) (d : ADict) : ADict :=
  match k.language with
  | none => d
  | some l => d.set l (.pos .string)

/-- Pygments: the names of lexer classes, a lexer by one of its names, the guess from a text, and what is made of a text. -/
structure Pygments (L : Type) where
  names : List Str
  byName : Str → Option L
  guess : Str → Option L
  html : L → Str → Str → Html
  tex : L → Str → Str

/-- The loop of `Code.lexer` (`tags/code.py:44-53`); `title` is `str.title`. -/
def lexerLoop {L : Type} (py : Pygments L) (title : Str → Str) (s : Str) : List Str → Except Err L
  | [] => match py.guess s with
    | some l => .ok l
    | none => .error .pygments
  | k :: ks =>
    if title k ++ "Lexer".toList ∈ py.names then
      match py.byName k with
      | some l => .ok l
      | none => .error .pygments
    else lexerLoop py title s ks

/-- `Code.lexer` (`tags/code.py:36-53`). -/
def lexer {L : Type} (py : Pygments L) (title : Str → Str) (d : ADict) (s : Str) : Except Err L :=
  lexerLoop py title s ((d.filter fun kv => kv.2 = .pos .string).map Prod.fst)

/-- `Code.html_fmt` (`tags/code.py:55-75`); `block` for the role `'block'`. -/
def htmlFmt {L : Type} (py : Pygments L) (title : Str → Str) (d : ADict) (block : Bool) (s : Str) : Except Err Html :=
  if block then
    match lexer py title d s with
    | .error e => .error e
    | .ok l => (element "div".toList [("class".toList, .str "code".toList)] [.elem (some (py.html l "highlight block".toList s))]).mapError .element
  else (element "code".toList d [.text s]).mapError .element

/-- `Code.tex_fmt` (`tags/code.py:77-86`). -/
def texFmt {L : Type} (py : Pygments L) (title : Str → Str) (d : ADict) (block : Bool) (s : Str) : Except Err Str :=
  if block then
    match lexer py title d s with
    | .error e => .error e
    | .ok l => .ok (py.tex l s)
  else .ok (texVerb s)

/-- A code tag in html: it is made, then formatted. -/
def tagHtml {L : Type} (c : Search) (read : Path → Option Str) (py : Pygments L) (title : Str → Str) (k : Kind) (d : ADict) (block : Bool)
    (s : Str) : Except Err Html :=
  match content c read s with
  | .error e => .error e
  | .ok t => htmlFmt py title (attributes k d) block t

/-- A code tag in LaTeX. -/
def tagTex {L : Type} (c : Search) (read : Path → Option Str) (py : Pygments L) (title : Str → Str) (k : Kind) (d : ADict) (block : Bool)
    (s : Str) : Except Err Str :=
  match content c read s with
  | .error e => .error e
  | .ok t => texFmt py title (attributes k d) block t

end Verif.Code
