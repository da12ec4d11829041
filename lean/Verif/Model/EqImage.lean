import Verif.Model.Render
import Verif.Model.Mock
import Verif.Model.AddFile

/-!
# Model of the images of equations

Models `Eq.html_fmt` of `/repo/src/disseminate/tags/eqs.py` and the paths of `SvgRender` and `PdfRender`
(`/repo/src/disseminate/builders/svgrender.py`, `pdfrender.py`), on the parameters of `Model/AddFile`, the LaTeX of `Model/Render` and the
names of `Model/Mock`.

Simplifications: neither the content nor an attribute is the path of a file that is found (`tags/img.py:133-135`,
`parallel_builder.py:57-59`), the scanners find nothing in the template, and the template `eq.tex` is the only file among the parameters (it
has no parents, and its context has no files).
-/

namespace Verif.EqImage

open Verif Verif.Attrs Verif.Formats Verif.Render Verif.Paths Verif.AddFile

/-- An equation after its constructor (`tags/eqs.py:48-58`): whether it is a block by a parameter or as a paragraph of its own
(`:60-64`), the name of the tag, its attributes, its content in LaTeX, and its content as it was before (`tags/receivers/hash.py:10-15`;
none if that was not a text). -/
structure Equation where
  block : Bool
  name : Str
  attrs : ADict
  content : Str
  raw : Option Str
deriving Repr, DecidableEq

/-- What is rendered by the template: `eq.tex` (`templates/default/tex/eq.tex:27`), i.e. `Eq.tex_fmt` (`tags/eqs.py:70-98`). `load` reads the
attribute `color` as attributes (`formats/tex.py:46-47`). -/
def Equation.tex (sp : Char → Bool) (load : Str → ADict) (e : Equation) : Except RErr Str :=
  eqTex sp e.block e.name e.attrs
    ((e.attrs.get? "color".toList).map fun v => match v with | .str s => .ok (load s) | .pos _ => .error .type) false e.content

/-- The attributes for the image (`tags/eqs.py:102-115`). The values of `crop` and `offset` are tuples of numbers: they are given as texts. -/
def Equation.imageAttrs (e : Equation) : ADict :=
  ((e.attrs.set "crop".toList (.str "(100, 100, 0, 0)".toList)).set "offset".toList (.str "(0, 0, -1, 0)".toList)).set "class".toList
    (.str (if e.block || e.attrs.has "env".toList then "eq blockeq".toList else "eq".toList))

/-- The parameters for the image (`tags/img.py:136`). -/
def Equation.parameters (target : Str) (e : Equation) : List Arg :=
  .text e.content :: attrArgs (Attrs.filter trackedTargets e.imageAttrs none (some target))

/-- What the name of the image is made of: `JinjaRender.parameters` (`jinja_render.py:158-188`) with the template `templ` and the hash of the
equation's content. -/
def Equation.items (hashtxt : Str → Str) (templ : SourcePath) (target : Str) (e : Equation) : List Arg :=
  Lists.uniq id (e.parameters target ++ .path (.source templ) :: (e.raw.map fun s => Arg.text (hashtxt s)).toList)

/-- `SequentialBuilder.outfilepath` (`sequential_builder.py:83-107`) without a given path: the path for the parameters, with the name of
the sub-builder's output and the extension of the builder. -/
def named (env : Env) (templ : SourcePath) (target : Str) (ext : Str) (useCache : Bool) (sub : Option TargetPath) :
    Except PathError (Option TargetPath) := do
  match ← generateOut env [.path (.source templ)] (some target) none (some ext) useCache true, sub with
  | some out, some s => return some (← (← out.useName (name s.sub)).useSuffix ext)
  | _, _ => return none

/-- The LaTeX file, in the cache (`pdfrender.py:26-30`, `jinja_render.py:194-221`). -/
def texOut (env : Env) (root : Path) (templ : SourcePath) (hash target : Str) : Except PathError (Option TargetPath) :=
  Mock.renderOut env root [.source templ] none hash ".tex".toList (some target) true true

/-- The image (`svgrender.py:17-44`): it is named by the pdf file (`:28`), and that by the LaTeX file (`pdfrender.py:36`). -/
def imageOut (env : Env) (root : Path) (templ : SourcePath) (hash target : Str) (useCache : Bool) : Except PathError (Option TargetPath) := do
  let tex ← texOut env root templ hash target
  let pdf ← named env templ target ".pdf".toList true tex
  named env templ target ".svg".toList useCache pdf

/-- The image of an equation, and the LaTeX file that it is made from. `hash` is the text of 12 characters for the items
(`builders/utils.py:72-76`). -/
def Equation.image (env : Env) (root : Path) (templ : SourcePath) (hashtxt : Str → Str) (hash : List Arg → Str) (target : Str) (e : Equation) :
    Except PathError (Option TargetPath) :=
  imageOut env root templ (hash (e.items hashtxt templ target)) target false

/-- See `Equation.image`. -/
def Equation.texFile (env : Env) (root : Path) (templ : SourcePath) (hashtxt : Str → Str) (hash : List Arg → Str) (target : Str) (e : Equation) :
    Except PathError (Option TargetPath) :=
  texOut env root templ (hash (e.items hashtxt templ target)) target

end Verif.EqImage
