import Verif.Model.Basic

/-!
# The builders in a composite builder (`builders/composite_builders/composite_builder.py`)

Simplification: a builder is known by a number, and its future, if it has one, is a number too.
-/

namespace Verif.BuilderTree

open Verif

mutual
/-- A builder: a single one, or a composite one with its sub-builders (`composite_builder.py:24-31`). -/
inductive Builder where
  | single (id : Nat) (future : Option Nat)
  | composite (id : Nat) (future : Option Nat) (subs : Builders)
/-- The list of sub-builders. -/
inductive Builders where
  | nil
  | cons (b : Builder) (l : Builders)
end

/-- The number and the future of a builder. -/
def Builder.entry : Builder → Nat × Option Nat
  | .single i f => (i, f)
  | .composite i f _ => (i, f)

/-- `len` of the list of sub-builders. -/
def Builders.length : Builders → Nat
  | .nil => 0
  | .cons _ l => l.length + 1

/-- `subbuilder.subbuilders`; only composite builders have it. -/
def Builder.subs? : Builder → Option Builders
  | .single _ _ => none
  | .composite _ _ subs => some subs

/-- The loop of `__len__` (`composite_builder.py:34-38`). -/
def lenLoop : Builders → Nat → Nat
  | .nil, n => n
  | .cons b l, n =>
    let n := n + 1
    lenLoop l (match b.subs? with | none => n | some subs => n + subs.length)

/-- `len` of a composite builder (`composite_builder.py:33-39`). -/
def len (subs : Builders) : Nat := lenLoop subs 0

mutual
/-- What `flatten` adds for one sub-builder (`composite_builder.py:134-138`). -/
def flattenOne : Builder → List (Nat × Option Nat)
  | .single i f => [(i, f)]
  | .composite i f subs => (i, f) :: flattenLoop subs
/-- The loop of `flatten` (`composite_builder.py:132-138`). -/
def flattenLoop : Builders → List (Nat × Option Nat)
  | .nil => []
  | .cons b l => flattenOne b ++ flattenLoop l
end

/-- `flatten` of a composite builder with the numbers `id` and `future` and the sub-builders `subs`
(`composite_builder.py:115-140`), with the builder that is given to it. -/
def flatten (id : Nat) (future : Option Nat) (subs : Builders) (given : Option Builder) : List (Nat × Option Nat) :=
  (match given with | some b => b.entry | none => (id, future)) :: flattenLoop subs

/-- `futures` (`composite_builder.py:142-158`). -/
def futures (id : Nat) (future : Option Nat) (subs : Builders) (given : Option Builder) : List Nat :=
  (flatten id future subs (some (given.getD (.composite id future subs)))).filterMap (·.2)

end Verif.BuilderTree
