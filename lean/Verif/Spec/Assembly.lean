import Verif.Spec.BuildAdds
import Verif.Spec.Targets
import Verif.Model.Assembly

/-! # Specification vocabulary for the builders of a project -/

namespace Verif.Build

open Verif Verif.Decider Verif.Paths
open Verif.Targets (Doc Tools EnvOk At buildersOf addTargetBuilders)

namespace Kit

/-- The builders are those of the documents of a project without an epub. -/
structure Of (K : Kit) (tools : Tools) (env : Paths.Env) (root : Doc) (subs : List Doc) : Prop where
  docs : K.docs = root :: subs
  table : addTargetBuilders tools env root subs = .ok K.table
  usual : EnvOk env
  /-- The cache is among the directories of the targets (`builders/environment.py:86-94`). -/
  cache : env.cachePath = child env.targetRoot ".cache".toList
  project : Targets.Project root (root :: subs)
  noEpub : ∀ d ∈ root :: subs, ".epub".toList ∉ d.targets
  /-- No two documents differ in the extension only. -/
  stems : ∀ d ∈ root :: subs, ∀ d' ∈ root :: subs, ∀ dir stem, At d dir stem → At d' dir stem → d = d'

variable (K : Kit)

/-- The step renders the page of a target of a document. -/
def IsPage (d : Doc) (t : Str) (s : Step) : Prop :=
  t ≠ ".pdf".toList ∧ ∃ b, (buildersOf K.table d).get? t = some b ∧
    s = ⟨K.parameters d t, K.enc "render".toList, toStr b.out.full, K.render d t, true⟩

/-- The step copies a file for a target of a document. -/
def IsCopy (d : Doc) (t : Str) (s : Step) : Prop :=
  t ≠ ".pdf".toList ∧ (∃ b, (buildersOf K.table d).get? t = some b) ∧
    ∃ file out, (file, out) ∈ K.copies d t ∧ s = ⟨[.path file], K.enc "copy".toList, out, fun bs => bs.headD [], true⟩

/-- The step makes an image for a target of a document. -/
def IsImage (d : Doc) (t : Str) (s : Step) : Prop :=
  t ≠ ".pdf".toList ∧ (∃ b, (buildersOf K.table d).get? t = some b) ∧ s ∈ K.images d t

/-- The step makes a pdf, in the cache, from the tex file of a document. -/
def IsConverter (d : Doc) (s : Step) : Prop :=
  (∃ b, (buildersOf K.table d).get? ".pdf".toList = some b) ∧ ∃ b, (buildersOf K.table d).get? ".tex".toList = some b ∧
    s = ⟨[.path (toStr b.out.full)], K.enc K.latex, K.compiled d, K.compile, false⟩

/-- The step copies the pdf of a document to its place. -/
def IsFinal (d : Doc) (s : Step) : Prop :=
  ∃ b, (buildersOf K.table d).get? ".pdf".toList = some b ∧
    s = ⟨[.path (K.compiled d)], K.enc "copy".toList, toStr b.out.full, fun bs => bs.headD [], true⟩

/-- The steps that use files of the author only, and those that do something else than to write the file of a target. -/
def IsFirst (s : Step) : Prop := ∃ d ∈ K.docs, ∃ t, K.IsPage d t s ∨ K.IsCopy d t s ∨ K.IsImage d t s
def IsSide (s : Step) : Prop := ∃ d ∈ K.docs, K.IsConverter d s ∨ ∃ t, K.IsCopy d t s ∨ K.IsImage d t s

/-- All steps. -/
def Makes (s : Step) : Prop := K.IsFirst s ∨ K.IsSide s ∨ ∃ d ∈ K.docs, K.IsFinal d s

/-- The parameters and tools of a project are proper. -/
structure Proper (U : Scope) : Prop where
  known : ∀ s, K.Makes s → U.step s
  closed : ∀ s fs bs, K.Makes s → U.files fs → Contents fs s.parameters bs →
    U.files (fun p => if p = s.out then some (s.tool bs) else fs p)
  faithful : Faithful K.cfg U
  /-- The own decision of a target builder has other digests than those of steps. -/
  groups : ∀ d ∈ K.docs, ∀ t s fs fs' k, U.step s → U.files fs → U.files fs' →
    K.cfg.hashItems fs [.other (K.enc ("build '".toList ++ className t ++ "'".toList)), .path (toStr d.src.full),
      .other (K.enc "sequential build".toList)] = some k →
    K.cfg.hashItems fs' (s.parameters ++ [.other s.action]) ≠ some k
  /-- What pages, copies and images are made from is not made by a step. -/
  sources : ∀ s s', K.IsFirst s → K.Makes s' → Item.path s'.out ∉ s.parameters
  /-- The files of copies, of images and of compiled files are not those of another step, unless it does the same. -/
  apart : ∀ s s', K.IsSide s → K.Makes s' → s.out = s'.out → s = s'

end Kit

end Verif.Build
