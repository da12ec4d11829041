import Verif.Spec.Build
import Verif.Model.BuildEpub

/-! # Specification vocabulary for the build of an epub -/

namespace Verif.Build

open Verif Verif.Decider

/-- The builder `e` packs an archive, with the package file that the builder `opf` renders, and fits to the other builders of the
project, while the files are in states for which `F`. -/
structure Packing (P : Project) (b : Packs) (F : FS → Prop) (e opf : Nat) (page archive : Step) : Prop where
  packs : b e = some ⟨opf, archive⟩
  /-- There is one epub. -/
  single : ∀ n, n ≠ e → b n = none
  group : ∃ g, P.node e = some (.group g) ∧ g.parallel = false
  render : P.node opf = some (.step page) ∧ page.instant = true ∧ page.parameters ≠ []
  /-- What the other builders make are not the files of the package file, nor the archive. -/
  others : ∀ i s, P.node i = some (.step s) → i ≠ opf → s.out ≠ page.out ∧ Item.path s.out ∉ page.parameters
  archived : ∀ i s, P.node i = some (.step s) → s.out ≠ archive.out
  /-- What the builders make are states in which the files may be. -/
  closed : ∀ i s fs fs', P.node i = some (.step s) → F fs → F fs' →
    F (fun p => if p = s.out then some (s.tool (s.parameters.map fun | .path q => (fs' q).getD [] | .other b => b)) else fs p)
  /-- The inputs of the package file have another digest than those of other builders (their actions are other ones). -/
  apart : ∀ fs fs' k, F fs → F fs' → P.cfg.hashItems fs (page.parameters ++ [.other page.action]) = some k →
    (∀ i s, P.node i = some (.step s) → i ≠ opf → P.cfg.hashItems fs' (s.parameters ++ [.other s.action]) ≠ some k) ∧
    (∀ n g, P.node n = some (.group g) → g.parallel = false → P.cfg.hashItems fs' g.inputs ≠ some k)

/-- The lists of sub-builders `T` are those of `T0`, but the archive, as a step `z`, comes after the package file `opf` in the epub `e`.
The epub and the archive fit to the other builders of the project. -/
structure Packed (P : Project) (U : Scope) (b : Packs) (T0 T : Nat → List Nat) (e opf z : Nat) (page archive : Step) : Prop where
  packs : b e = some ⟨opf, archive⟩
  /-- There is one epub. -/
  single : ∀ n, n ≠ e → b n = none
  group : ∃ g, P.node e = some (.group g) ∧ g.parallel = false
  render : P.node opf = some (.step page) ∧ page.instant = true
  zip : P.node z = some (.step archive) ∧ archive.instant = true
  lists : T0 e = [opf] ∧ T e = [opf, z] ∧ ∀ n, n ≠ e → T n = T0 n ∧ opf ∉ T0 n
  /-- What the other builders make is not the package file, nor a parameter of it. -/
  others : ∀ i s, P.node i = some (.step s) → i ≠ opf → s.out ≠ page.out ∧ Item.path s.out ∉ page.parameters
  /-- The inputs of the package file have another digest than those of other builders (their actions are other ones). -/
  apart : ∀ fs fs' k, U.files fs → U.files fs' → P.cfg.hashItems fs (page.parameters ++ [.other page.action]) = some k →
    (∀ i s, P.node i = some (.step s) → i ≠ opf → P.cfg.hashItems fs' (s.parameters ++ [.other s.action]) ≠ some k) ∧
    (∀ n g, P.node n = some (.group g) → g.parallel = false → P.cfg.hashItems fs' g.inputs ≠ some k)

/-- The build of `root` can begin (as `Begins`, with the archive as a step of the epub). -/
structure BeginsPacked (P : Project) (U : Scope) (T : Nat → List Nat) (root e opf : Nat) (w : World) (S : Nat → Prop) : Prop where
  sound : Sound P U
  files : U.files w.fs
  new : New w
  top : root ≠ opf
  guarded : Guarded P T (fun _ => False) root
  upToDate : UpToDate P w S
  /-- A composite builder, other than the epub, that removes finished builders is parallel, or the steps of its sub-builders but the
  first one have no file yet or are steps of `S`. -/
  clears : ∀ n g, n ≠ e → P.node n = some (.group g) → g.clear = true → g.parallel = false → ∀ a m c, w.subs n = a ++ m :: c → a ≠ [] →
    ∀ i s, Part P T m i → P.node i = some (.step s) → w.fs s.out = none ∨ S i

end Verif.Build
