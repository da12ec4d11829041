import Verif.Spec.Build
import Verif.Model.BuildAdds

/-! # Specification vocabulary for builds in which builders are added -/

namespace Verif.Build

open Verif Verif.Decider

/-- The sub-builders of groups, with those added by the pages that were rendered `runs` times. -/
def grown (subs : Nat → List Nat) (a : Adds) (runs : Nat → Nat) : Nat → List Nat := fun n =>
  subs n ++ match a n with
    | some (p, l) => if runs p = 0 then [] else l
    | none => []

/-- The builder `n` is below the composite builder `m`. -/
inductive Under (P : Project) (subs : Nat → List Nat) : Nat → Nat → Prop
  | child (m n : Nat) (g : Group) : P.node m = some (.group g) → n ∈ subs m → Under P subs m n
  | deeper (m x n : Nat) (g : Group) : P.node m = some (.group g) → x ∈ subs m → Under P subs x n → Under P subs m n

/-- The builders that are added fit: groups get builders from the rendering of a page, which is beside the group, in a builder that keeps
its finished builders; what is added does not get builders itself; and builders with pages use what is made by their own steps only. -/
structure Fits (P : Project) (subs : Nat → List Nat) (a : Adds) : Prop where
  groups : ∀ n p l, a n = some (p, l) → ∃ g, P.node n = some (.group g)
  pages : ∀ n p l, a n = some (p, l) → ∃ s, P.node p = some (.step s) ∧ s.instant = true
  added : ∀ n p l, a n = some (p, l) → ∀ m ∈ l, a m = none ∧ ∀ k, Under P subs m k → a k = none
  kept : ∀ n p l, a n = some (p, l) → ∀ m g, P.node m = some (.group g) → n ∈ subs m → g.clear = false
  beside : ∀ n p l, a n = some (p, l) → ∀ m, Under P subs m n → Part P subs m p
  apart : ∀ n p l, a n = some (p, l) → ¬ Part P (grown subs a fun _ => 1) n p
  guarded : ∀ n p l m, a n = some (p, l) → Part P (grown subs a fun _ => 1) m p → ∀ runs, Guarded P (grown subs a runs) (fun _ => False) m

/-- The build of `root` can begin, whatever pages will be rendered. -/
def BeginsAdds (P : Project) (U : Scope) (a : Adds) (root : Nat) (w : World) (S : Nat → Prop) : Prop :=
  Fits P w.subs a ∧ ∀ runs, Begins P U root { w with subs := grown w.subs a runs } S

/-- As `Past`, with builds in which builders are added. -/
inductive PastAdds (c : Cfg) (U : Scope) : FS → Dict Bytes Bytes → Prop
  | new (fs : FS) : U.files fs → PastAdds c U fs []
  | edit (fs fs' : FS) (db : Dict Bytes Bytes) : PastAdds c U fs db → U.files fs' → PastAdds c U fs' db
  | forget (fs : FS) (db db' : Dict Bytes Bytes) : PastAdds c U fs db → (∀ k o, db'.get? k = some o → db.get? k = some o) → PastAdds c U fs db'
  | build (P : Project) (a : Adds) (depth root rounds : Nat) (w : World) (S : Nat → Prop) : P.cfg = c → BeginsAdds P U a root w S →
      PastAdds c U w.fs w.db → PastAdds c U (P.buildAdds a depth root rounds w).2.fs (P.buildAdds a depth root rounds w).2.db
  | stopped (P : Project) (a : Adds) (stop : Stop) (depth root rounds : Nat) (w : World) (S : Nat → Prop) : P.cfg = c →
      BeginsAdds P U a root w S → PastAdds c U w.fs w.db →
      PastAdds c U (P.buildStop a stop depth root rounds w).2.fs (P.buildStop a stop depth root rounds w).2.db

end Verif.Build
