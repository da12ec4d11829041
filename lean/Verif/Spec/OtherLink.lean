import Verif.Spec.Links
import Verif.Spec.Targets
import Verif.Model.OtherLink

/-!
# Specification of links to the source and to other targets of a document
-/

namespace Verif.OtherLink

open Verif Verif.Paths

/-- The value of an HTML attribute with this text: character references stand for characters. -/
inductive Shown : Str → Str → Prop
  | nil : Shown [] []
  | plain (c : Char) {s t : Str} : c ∉ ['&', '<', '>', '"', '\''] → Shown s t → Shown (c :: s) (c :: t)
  | amp {s t : Str} : Shown s t → Shown ("&amp;".toList ++ s) ('&' :: t)
  | lt {s t : Str} : Shown s t → Shown ("&lt;".toList ++ s) ('<' :: t)
  | gt {s t : Str} : Shown s t → Shown ("&gt;".toList ++ s) ('>' :: t)
  | quot {s t : Str} : Shown s t → Shown ("&#34;".toList ++ s) ('"' :: t)
  | apos {s t : Str} : Shown s t → Shown ("&#39;".toList ++ s) ('\'' :: t)

/-- A link leads from a page to a file: read in the directory of the page, it names the file. -/
def LeadsTo (cwd : List Str) (page : Path) (link : Str) (file : Path) : Prop :=
  ∃ (dir names : List Str) (n : Str) (d e : List Str),
    page.parts = dir ++ [n] ∧ Links.At cwd ⟨page.abs, dir⟩ d ∧ Links.At cwd file e ∧ Links.Slashed link names ∧ Links.Walk d names e

/-- The file of a listed target of the document `dir/stem.…`: it is in the directory of targets, below the directory of the target. -/
def fileOf (env : Env) (dir : Path) (stem t : Str) : Path :=
  ⟨env.targetRoot.abs, env.targetRoot.parts ++ t.tail :: dir.parts ++ [stem ++ t]⟩

/-- The source file of a document. -/
def sourceOf (s : SourcePath) : Path := ⟨s.root.abs, s.root.parts ++ s.sub.parts⟩

/-- The context of a document in a project whose builders are prepared. -/
def ctxOf (tb : Targets.Table) (root d : Targets.Doc) : Ctx :=
  ⟨⟨d.targets, Targets.buildersOf tb d⟩, some d.src, some ⟨root.targets, Targets.buildersOf tb root⟩⟩

/-- The file a tag links to: `d` is the document `dir/stem.…`, the root document is `rdir/rstem.…`. -/
def destOf (env : Env) (rdir : Path) (rstem : Str) (d : Targets.Doc) (dir : Path) (stem : Str) : Kind → Path
  | .src => sourceOf d.src
  | .target t => fileOf env dir stem t
  | .epub => fileOf env rdir rstem ".epub".toList

/-- The page of `d` for the target `this` has a link: the target of the page and that of the link are listed (`.epub` by the root
document), and the link is not one to the page itself. -/
def HasLink (env : Env) (root d : Targets.Doc) (dir : Path) (stem : Str) (this : Str) : Kind → Prop
  | .src => this ∈ d.targets ∧ sourceOf d.src ≠ fileOf env dir stem this
  | .target t => this ∈ d.targets ∧ t ∈ d.targets ∧ t ≠ this
  | .epub => this ∈ d.targets ∧ ".epub".toList ∈ root.targets

end Verif.OtherLink
