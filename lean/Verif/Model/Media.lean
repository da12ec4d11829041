import Verif.Model.Render
import Verif.Model.Links

/-!
# Images and the images of equations

Model of `src/disseminate/tags/img.py` and of `Eq.html_fmt` of `src/disseminate/tags/eqs.py`.

Simplifications: the build that is added for a file, and the file that it makes, are given by a function of the target and
the parameters of the build (`builders/target_builders/receivers.py:14-52`; the files of builders are in
`Verif.Model.Utils`, `Verif.Model.Mock` and `Verif.Model.Chain`); no file is an exception (there is no builder). The
attributes `crop` and `offset` of equations are for the build only: no element has them.
-/

namespace Verif.Media

open Verif Verif.Attrs Verif.Formats Verif.Render Verif.Paths

/-! ### The files -/

/-- The files of a tag by target, `_outfilepaths` (`tags/img.py:49-53`), and the builds that have been added to the target
builders, in order, with their parameters. -/
structure Store (P : Type) where
  cache : Dict Str TargetPath
  builds : List (Str × P)

/-- `Img.add_file` (`tags/img.py:86-156`). `own` is whether the content, attributes and context are those of the tag (they
are not given). -/
def addFile {P : Type} (emit : Str → P → Option TargetPath) (st : Store P) (target : Str) (params : P) (own : Bool) :
    Option TargetPath × Store P :=
  match (if own then st.cache.get? target else none) with
  | some f => (some f, st)
  | none => match emit target params with
    | none => (none, st)
    | some f => (some f, ⟨if own then st.cache.set target f else st.cache, st.builds ++ [(target, params)]⟩)

/-- A tag is rendered in one target after the other; `params` are the parameters of its build in a target. -/
def renderings {P : Type} (emit : Str → P → Option TargetPath) (params : Str → P) (own : Bool) :
    List Str → Store P → List (Option TargetPath) × Store P
  | [], st => ([], st)
  | t :: ts, st =>
    let r := addFile emit st t (params t) own
    let rs := renderings emit params own ts r.2
    (r.1 :: rs.1, rs.2)

/-! ### Images -/

/-- What a character has to be for `str.encode('ascii')` (`tags/img.py:173-176`). -/
def isAscii (c : Char) : Bool := c.val < 128

/-- `Img.tex_fmt` for the file that has been added (`tags/img.py:158-183`). `parse` and `parsePct` read numbers, `clsStr` is the
text of a class (see `texPercentwidth`). -/
def imgTex (parse parsePct : Str → Option PyFloat) (clsStr : PType → Str) (d : ADict) (file : TargetPath) : Except RErr Str :=
  match texPercentwidth parse parsePct clsStr trackedTargets d ".tex".toList false with
  | none => .error .other
  | some d' => match withSuffix file.full [] with
    | .error _ => .error .other
    | .ok base =>
      (if (toStr file.full).all isAscii then .ok (toStr base) else cmd "detokenize".toList [] (toStr base)).bind fun b =>
        cmd "includegraphics".toList d' ('{' :: b ++ '}' :: suffix file.full)

/-- `Img.html_fmt` for the file that has been added (`tags/img.py:185-199`), with `Tag.html_fmt` (`tags/tag.py:289-328`). -/
def imgHtml (parse parsePct : Str → Option PyFloat) (cwd : List Str) (ctx : Links.Ctx) (d : ADict) (target : Str)
    (file : TargetPath) : Except RErr Html :=
  match Links.getUrl cwd file (some ctx) (some target) with
  | .error _ => .error .other
  | .ok url => match xhtmlPercentwidth parse parsePct trackedTargets d target with
    | none => .error .other
    | some d' => element "img".toList (d'.set "src".toList (.str url)) [.text []]

/-- `Eq.html_fmt` for the file that has been added (`tags/eqs.py:100-128`). -/
def eqHtml (parse parsePct : Str → Option PyFloat) (cwd : List Str) (ctx : Links.Ctx) (block : Bool) (d : ADict) (target : Str)
    (file : TargetPath) : Except RErr Html :=
  imgHtml parse parsePct cwd ctx
    (d.set "class".toList (.str (if block || d.has "env".toList then "eq blockeq".toList else "eq".toList))) target file

/-! ### In trees -/

/-- An image in a tree: its files in LaTeX and html, or none. -/
def imgNode (parse parsePct : Str → Option PyFloat) (clsStr : PType → Str) (cwd : List Str) (ctx : Links.Ctx) (d : ADict)
    (target : Str) (texFile htmlFile : Option TargetPath) : Node :=
  .other (fun _ => [])
    (fun _ => match texFile with | some f => imgTex parse parsePct clsStr d f | none => .error .other)
    (match htmlFile with | some f => imgHtml parse parsePct cwd ctx d target f | none => .error .other)

/-- An equation in a tree. `load` reads the attribute `color` as attributes (`tags/eqs.py:79-83`, `formats/tex.py:46-47`); the
class of a positional attribute has no attributes: `TypeError`. -/
def eqNode (load : Str → ADict) (parse parsePct : Str → Option PyFloat) (cwd : List Str) (ctx : Links.Ctx) (block : Bool)
    (name : Str) (d : ADict) (content : Node) (target : Str) (htmlFile : Option TargetPath) : Node :=
  .eq block name d
    ((d.get? "color".toList).map fun v => match v with | .str s => .ok (load s) | .pos _ => .error .type) content
    (match htmlFile with | some f => eqHtml parse parsePct cwd ctx block d target f | none => .error .other)

end Verif.Media
