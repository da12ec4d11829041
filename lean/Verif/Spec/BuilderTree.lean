import Verif.Model.BuilderTree

/-!
# The builders below a builder
-/

namespace Verif.BuilderTree.Spec

open Verif

/-- A builder is in a list. -/
inductive In (b : Builder) : Builders → Prop where
  | first (l : Builders) : In b (.cons b l)
  | later (a : Builder) {l : Builders} : In b l → In b (.cons a l)

/-- A builder is in a list of sub-builders, or in one of a builder there, at any depth. -/
inductive Below (b : Builder) : Builders → Prop where
  | direct {subs : Builders} : In b subs → Below b subs
  | deeper {subs inner : Builders} (i : Nat) (f : Option Nat) :
      In (.composite i f inner) subs → Below b inner → Below b subs

mutual
/-- How many builders there are in a builder, with it. -/
def size : Builder → Nat
  | .single _ _ => 1
  | .composite _ _ subs => sizes subs + 1
/-- How many builders there are in a list, at any depth. -/
def sizes : Builders → Nat
  | .nil => 0
  | .cons b l => size b + sizes l
end

/-- No sub-builder of a sub-builder has sub-builders itself. -/
def TwoLevels (subs : Builders) : Prop :=
  ∀ i f inner, In (.composite i f inner) subs → ∀ j g deep, In (.composite j g deep) inner → deep = .nil

end Verif.BuilderTree.Spec
