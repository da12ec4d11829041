import Verif.Model.Basic

/-!
# Specification of tables
-/

namespace Verif.Data.Spec

open Verif

/-- `w` is the length of the shortest row. -/
def IsWidth {α : Type} (rows : List (List α)) (w : Nat) : Prop :=
  (∀ r ∈ rows, w ≤ r.length) ∧ ∃ r ∈ rows, r.length = w

/-- `c` has the items at the place `j` of all the rows, in the order of the rows. -/
def IsColumn {α : Type} (rows : List (List α)) (j : Nat) (c : List α) : Prop :=
  c.length = rows.length ∧ ∀ (i : Nat) (r : List α), rows[i]? = some r → ∃ a, r[j]? = some a ∧ c[i]? = some a

/-- How LaTeX reads the cells of a line: `\\` ends the line, `\&` is the character `&`, and another `&` ends a cell.
`cur` has the reversed characters of the cell that is being read. -/
def readCells : Str → Str → List Str
  | cur, '\\' :: '\\' :: _ => [cur.reverse]
  | cur, '\\' :: '&' :: s => readCells ('&' :: cur) s
  | cur, '&' :: s => cur.reverse :: readCells [] s
  | cur, c :: s => readCells (c :: cur) s
  | cur, [] => [cur.reverse]

/-- `t` is `s` with spaces around it. -/
def Padded (t s : Str) : Prop := ∃ p q, t = p ++ s ++ q ∧ (∀ c ∈ p, c = ' ') ∧ ∀ c ∈ q, c = ' '

end Verif.Data.Spec
