import Verif.Model.Cli
import Verif.Model.Targets

/-!
# Model of how the builders of a project are put together

Models `create_root_builder` and `collect_target_builders` of `/repo/src/disseminate/builders/environment.py`, and the sub-builders made by
the constructors in `/repo/src/disseminate/builders/target_builders`, for the target builders of `Model/Targets`. The result is a project
of `Model/Build`, with the builders that pages add of `Model/BuildAdds`.

Simplifications: those of `Model/Build` and `Model/BuildAdds`. Documents with an epub target are left out. The parameters of pages
(`Model/Jinja`, `Model/Scanner`), the copies that html targets make (`Model/HtmlCopy`), the builders of images (`Model/AddFile`), each of
which is one step, and the path of the compiled file in the cache (`Model/Mock`) are given. Builders are known by what they are for, and
numbered by their position in the list of all of them.
-/

namespace Verif.Build

open Verif Verif.Decider Verif.Paths
open Verif.Targets (Doc Table buildersOf)

/-- What the builders of a project are made from: the target builders of its documents, and the parameters and tools of steps. -/
structure Kit where
  cfg : Cfg
  ends : Nat → List (Nat × Builder.Future)
  enc : Str → Bytes
  docs : List Doc
  table : Table
  /-- The parameters of the `JinjaRender` of a target (`builders/jinja_render.py:158-188`), and what it makes of them. -/
  parameters : Doc → Str → List Item
  render : Doc → Str → List Bytes → Bytes
  /-- The files copied for an html target, and where they go (`html_builder.py:27-56`). -/
  copies : Doc → Str → List (Str × Str)
  /-- The builders that the tags of images add (`target_builders/receivers.py:14-52`). -/
  images : Doc → Str → List Step
  /-- The action of the builder from tex to pdf, what it makes, and where (`pdf_builder.py:40-45`). -/
  latex : Str
  compile : List Bytes → Bytes
  compiled : Doc → Str

/-- The builders of a project: the root builder; for a target of a document, its builder, the parallel builder for dependencies, the
render builder, the copies and those of images; and for a pdf, the converter and the copy. -/
inductive Key
  | root
  | target (d : Doc) (ext : Str)
  | deps (d : Doc) (ext : Str)
  | page (d : Doc) (ext : Str)
  | copy (d : Doc) (ext : Str) (j : Nat)
  | image (d : Doc) (ext : Str) (j : Nat)
  | converter (d : Doc)
  | final (d : Doc)
deriving DecidableEq

namespace Kit

variable (K : Kit)

/-- The names of the classes of target builders (`target_builders/*.py`). -/
def className (ext : Str) : Str :=
  if ext = ".html".toList then "HtmlBuilder".toList
  else if ext = ".xhtml".toList then "XHtmlBuilder".toList
  else if ext = ".tex".toList then "TexBuilder".toList
  else if ext = ".txt".toList then "TxtBuilder".toList
  else "PdfBuilder".toList

/-- The output of a target builder, if there is one. -/
def out (d : Doc) (ext : Str) : Option Str := ((buildersOf K.table d).get? ext).map fun b => toStr b.out.full

/-- The render builder of a target (`target_builder.py:121-130`). -/
def pageStep (d : Doc) (ext : Str) (out : Str) : Step :=
  ⟨K.parameters d ext, K.enc "render".toList, out, K.render d ext, true⟩

/-- A `Copy` (`builders/copy.py:11-70`). -/
def copyStep (file out : Str) : Step :=
  ⟨[.path file], K.enc "copy".toList, out, fun bs => bs.headD [], true⟩

/-- The converter from tex to pdf (`pdf_builder.py:40-45`, `:58`). -/
def converterStep (d : Doc) (tex : Str) : Step :=
  ⟨[.path tex], K.enc K.latex, K.compiled d, K.compile, false⟩

/-- The decision of a target builder (`target_builder.py:89-97`, `builders/builder.py:277-287`). -/
def targetGroup (d : Doc) (ext out : Str) : Group :=
  ⟨false, false, [.other (K.enc ("build '".toList ++ className ext ++ "'".toList)), .path (toStr d.src.full),
    .other (K.enc "sequential build".toList)], .path out⟩

/-- The builder for a key. The root builder has `clear_done` (`builders/environment.py:214-215`), as has the parallel builder for dependencies
(`composite_builder.py:22`, `target_builder.py:115-119`); target builders do not (`target_builder.py:47`). -/
def nodeOf : Key → Option Node
  | .root => some (.group ⟨true, true, [], .other []⟩)
  | .target d ext => (K.out d ext).map fun o => .group (K.targetGroup d ext o)
  | .deps _ _ => some (.group ⟨true, true, [], .other []⟩)
  | .page d ext => (K.out d ext).map fun o => .step (K.pageStep d ext o)
  | .copy d ext j => (K.copies d ext)[j]?.map fun c => .step (K.copyStep c.1 c.2)
  | .image d ext j => (K.images d ext)[j]?.map .step
  | .converter d => (K.out d ".tex".toList).map fun o => .step (K.converterStep d o)
  | .final d => (K.out d ".pdf".toList).map fun o => .step (K.copyStep (K.compiled d) o)

/-- The target builders of a document (`builders/environment.py:240-242`). -/
def targetsOf (d : Doc) : List Key := (buildersOf K.table d).map fun eb => .target d eb.1

/-- The sub-builders that a builder has when it was made (`builders/environment.py:217-219`, `:237-242`, `target_builder.py:115-130`,
`pdf_builder.py:27-51`, `html_builder.py:27-56`). -/
def below : Key → List Key
  | .root => K.docs.flatMap K.targetsOf
  | .target d ext =>
    if ext = ".pdf".toList then [.target d ".tex".toList, .converter d, .final d] else [.deps d ext, .page d ext]
  | .deps d ext => (List.range (K.copies d ext).length).map (.copy d ext)
  | _ => []

/-- The builders that the tags of images add. -/
def imagesOf (d : Doc) (ext : Str) : List Key := (List.range (K.images d ext).length).map (.image d ext)

/-- The builders for a target of a document. -/
def keysOf (d : Doc) (ext : Str) : List Key :=
  if ext = ".pdf".toList then [.target d ext, .converter d, .final d]
  else [.target d ext, .deps d ext, .page d ext] ++ K.below (.deps d ext) ++ K.imagesOf d ext

/-- All builders. -/
def keys : List Key := .root :: K.docs.flatMap fun d => (buildersOf K.table d).flatMap fun eb => K.keysOf d eb.1

/-- The number of a builder. -/
def number (k : Key) : Nat := K.keys.idxOf k

/-- The project. -/
def project : Project where
  cfg := K.cfg
  node i := (K.keys[i]?).bind K.nodeOf
  ends := K.ends

/-- The sub-builders, by their numbers. -/
def subs (i : Nat) : List Nat :=
  match K.keys[i]? with
  | some k => (K.below k).map K.number
  | none => []

/-- The builders that pages add: those of images, to the parallel builder of the target (`target_builder.py:151-162`,
`pdf_builder.py:63-66`). -/
def adds (i : Nat) : Option (Nat × List Nat) :=
  match K.keys[i]? with
  | some (.deps d ext) => some (K.number (.page d ext), (K.imagesOf d ext).map K.number)
  | _ => none

/-- The builders were just made. -/
def made (fs : FS) (db : Dict Bytes Bytes) : World := ⟨fs, db, fun _ => Builder.Leaf.new, fun _ => [], fun _ => 0, K.subs, 0⟩

/-- The build of the root document (`target_builders/receivers.py:118-136`, `builders/environment.py:200-221`). -/
def build (depth rounds : Nat) (fs : FS) (db : Dict Bytes Bytes) : Option (Except Builder.Err Builder.Status) × World :=
  K.project.buildAdds K.adds depth (K.number .root) rounds (K.made fs db)

/-- The environment of the project in the command `build` (`builders/environment.py:47-81`), with the path of its database. -/
def environment (cache : Str) : Env := ⟨K.project, K.adds, K.number .root, cache, K.made (fun _ => none) []⟩

end Kit

end Verif.Build
