import Verif.Model.Lists

/-! # Specification vocabulary for the list utilities -/

namespace Verif.Lists.Spec

/-- The entry in row `i` and column `j` of a table, if there is one. -/
def cell {α : Type} (t : List (List α)) (i j : Nat) : Option α :=
  match t[i]? with
  | some row => row[j]?
  | none => none

/-- A table with `m` rows of `n` columns each. -/
def Rect {α : Type} (m n : Nat) (t : List (List α)) : Prop :=
  t.length = m ∧ ∀ r ∈ t, r.length = n

end Verif.Lists.Spec
