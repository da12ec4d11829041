import Verif.Spec.Build

/-! # Specification vocabulary for the end of builds -/

namespace Verif.Build

open Verif Verif.Decider Verif.Builder

/-- Commands end: each of them, whenever it was started, in some way. -/
def Ending (P : Project) : Prop := ∀ i s t, P.node i = some (.step s) → ∃ t' f, t ≤ t' ∧ f ≠ Future.running ∧ (i, f) ∈ P.ends t'

/-- Commands that end do so with success. -/
def Successful (P : Project) : Prop := ∀ t e, e ∈ P.ends t → e.2 = .ended 0

/-- The files that steps use and no step makes are there. -/
def HasSources (P : Project) (w : World) : Prop :=
  ∀ i s p, P.node i = some (.step s) → Item.path p ∈ s.parameters → ¬ Made P (fun _ => True) p → w.fs p ≠ none

/-- The builder `n` and those in it are there, nested at most `k` deep. -/
inductive Deep (P : Project) (subs : Nat → List Nat) : Nat → Nat → Prop
  | step (k n : Nat) (s : Step) : P.node n = some (.step s) → Deep P subs (k + 1) n
  | group (k n : Nat) (g : Group) : P.node n = some (.group g) → (∀ m ∈ subs n, Deep P subs k m) → Deep P subs (k + 1) n

end Verif.Build
