import Verif.Model.Targets
import Verif.Spec.Paths

/-!
# Specification of the targets of documents
-/

namespace Verif.Targets

open Verif Verif.Paths

/-- The extensions for which there is a target builder. -/
def supported : List Str := [".html".toList, ".xhtml".toList, ".tex".toList, ".txt".toList, ".pdf".toList, ".epub".toList]

/-- The document `d` of a project with the given root document has a builder for a target: the target is listed (`.epub` for the
root document only), or it is an intermediate of a listed one: `.tex` of `.pdf`, or `.xhtml` of the `.epub` of the root document. -/
def Wanted (root d : Doc) (t : Str) : Prop :=
  (t ∈ d.targets ∧ (t = ".epub".toList → d.src = root.src)) ∨
  (t = ".tex".toList ∧ ".pdf".toList ∈ d.targets) ∨
  (t = ".xhtml".toList ∧ ".epub".toList ∈ root.targets)

/-- The file of a target of the document `dir/stem.…`: in the directory of targets if the target is listed, otherwise in its
cache; below it in the directory of the target, at the place of the document, with the extension of the target. -/
def place (env : Env) (d : Doc) (dir : Path) (stem : Str) (t : Str) : TargetPath :=
  ⟨if t ∈ d.targets then env.targetRoot else env.cachePath, ⟨false, [t.tail]⟩, child dir (stem ++ t)⟩

/-- The source path of a document is `dir/stem` with an extension or without one, below the root of the project. -/
structure At (d : Doc) (dir : Path) (stem : Str) : Prop where
  good : Good dir
  rel : dir.abs = false
  split : ∃ n e, d.src.sub = child dir n ∧ IsName n ∧ Splits n stem e

/-- A usual environment: proper paths, and a media path that is not absolute. -/
structure EnvOk (env : Env) : Prop where
  root : Good env.targetRoot
  cache : Good env.cachePath
  media : (env.mediaPath.getD []).head? ≠ some '/'

/-- The targets cannot be built: one is not supported, or the conversion to `.pdf` or `.epub` is not available. -/
def Impossible (tools : Tools) (root : Doc) (docs : List Doc) : Prop :=
  (∃ d ∈ docs, ∃ t ∈ d.targets, t ∉ supported) ∨
  ((∃ d ∈ docs, ".pdf".toList ∈ d.targets) ∧ tools.pdf = false) ∨
  (".epub".toList ∈ root.targets ∧ tools.epub = false)

/-- The documents of a project: the root document is one of them, their source paths differ and are proper, and their targets
start with a period. -/
structure Project (root : Doc) (docs : List Doc) : Prop where
  root_mem : root ∈ docs
  distinct : ∀ d ∈ docs, ∀ d' ∈ docs, d.src = d'.src → d = d'
  at_ : ∀ d ∈ docs, ∃ dir stem, At d dir stem
  dots : ∀ d ∈ docs, ∀ t ∈ d.targets, t.head? = some '.'

end Verif.Targets

namespace Verif.Targets

open Verif Verif.Paths

/-- A line of an entry `include` or `includes`: it is blank, or it names a path by its components, with space around it. -/
inductive LineOf (sp : Char → Bool) : Str → Option (List Str) → Prop
  | blank (l : Str) : (∀ c ∈ l, sp c = true) → LineOf sp l none
  | path (pre post : Str) (comps : List Str) : (∀ c ∈ pre, sp c = true) → (∀ c ∈ post, sp c = true) → comps ≠ [] →
      (∀ c ∈ comps, IsName c) → (List.intercalate ['/'] comps).head?.all (sp · = false) →
      (List.intercalate ['/'] comps).getLast?.all (sp · = false) →
      LineOf sp (pre ++ List.intercalate ['/'] comps ++ post) (some comps)

end Verif.Targets
