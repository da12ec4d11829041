import Verif.Model.Validators

/-!
# Specification of the validation of arguments
-/

namespace Verif.Validators

open Verif

/-- `m` has the items of `l`, converted in order. -/
inductive Converts {α : Type} (conv : α → Except Err α) : List α → List α → Prop
  | nil : Converts conv [] []
  | cons (a b : α) (l m : List α) : conv a = .ok b → Converts conv l m → Converts conv (a :: l) (b :: m)

/-- The first item of `l` that cannot be converted raises `e`. -/
def FirstFails {α : Type} (conv : α → Except Err α) (l : List α) (e : Err) : Prop :=
  ∃ p a q, l = p ++ a :: q ∧ conv a = .error e ∧ ∀ x ∈ p, ∃ y, conv x = .ok y

/-- The tuple `t` is a valid one for the argument. -/
def ValidFor {α : Type} (arg : Arg α) (length : Option Nat) (type : Option (α → Except Err α)) (t : List α) : Prop :=
  ∃ l, arg = .items l ∧ (∀ n, length = some n → t.length = n) ∧
    match type with
    | none => t = l
    | some conv => Converts conv l t

end Verif.Validators
