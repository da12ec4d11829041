import Verif.Model.Classes

/-!
# Specification of the utilities for classes
-/

namespace Verif.Classes.Spec

open Verif Verif.Classes

/-- The class `c` names the class `b` as a base. -/
def Base (T : Table) (b c : Nat) : Prop := ∃ x, T[c]? = some x ∧ b ∈ x.bases

/-- `Derives T c d`: the class `d` derives from `c`, directly or not. -/
inductive Derives (T : Table) : Nat → Nat → Prop
  | base (c d : Nat) : Base T c d → Derives T c d
  | step (c s d : Nat) : Base T c s → Derives T s d → Derives T c d

/-- The class `c` itself gives the attribute `k` the value `m`. -/
def Gives (T : Table) (c : Nat) (k : Str) (m : Member) : Prop := ∃ x, T[c]? = some x ∧ x.own.get? k = some m

/-- A table of classes: bases come before, and each class has one value for each of its names. -/
structure WellFormed (T : Table) : Prop where
  earlier : ∀ b c, Base T b c → b < c
  names : ∀ (c : Nat) x, T[c]? = some x → x.own.keys.Nodup

/-- The method resolution order of a class: it comes first, then come all it derives from. -/
def Resolves (T : Table) (mro : Nat → List Nat) : Prop :=
  ∀ c, (∃ l, mro c = c :: l) ∧ ∀ b, b ∈ mro c ↔ b = c ∨ Derives T b c

/-- Each class has at most one base. -/
def Linear (T : Table) : Prop := ∀ (c : Nat) x, T[c]? = some x → x.bases.length ≤ 1

/-- The value of an attribute for a class with single inheritance: its own, or else that of its base. -/
inductive Nearest (T : Table) (k : Str) : Nat → Member → Prop
  | own (c : Nat) (m : Member) : Gives T c k m → Nearest T k c m
  | base (c b : Nat) (m : Member) : (¬ ∃ m', Gives T c k m') → Base T b c → Nearest T k b m → Nearest T k c m

/-- The method resolution order with single inheritance: the class, then that of its base. -/
def ResolvesLinear (T : Table) (mro : Nat → List Nat) : Prop :=
  ∀ c, (∀ b, Base T b c → mro c = c :: mro b) ∧ ((¬ ∃ b, Base T b c) → mro c = [c])

/-- Each weak attribute was made for one name. -/
def OneName (T : Table) : Prop :=
  ∀ c c' k k' d, Gives T c k (.weak d) → Gives T c' k' (.weak d) → k = k'

/-- A program with single inheritance, in which each weak attribute has one name, which is no name of
`object`. -/
structure Plain (p : Program) : Prop where
  wellFormed : WellFormed p.table
  linear : Linear p.table
  resolves : ResolvesLinear p.table p.mro
  oneName : OneName p.table
  known : ∀ obj, p.cls obj < p.table.length
  noObject : ∀ c k d, Gives p.table c k (.weak d) → ∀ m, ¬ Gives p.table object k m

/-- The attribute `name` of the object `obj` is a weak attribute. -/
def Weak (p : Program) (obj : Nat) (name : Str) : Prop := ∃ d, Nearest p.table name (p.cls obj) (.weak d)

/-- The object assigned last to an attribute of an object, unless it was deleted since; the latest event
comes first. An assignment of `None` is none. -/
def lastAssigned (obj : Nat) (name : Str) : List Event → Option Nat
  | [] => none
  | .assign o n (some v) :: es => if o = obj ∧ n = name then some v else lastAssigned obj name es
  | .delete o n :: es => if o = obj ∧ n = name then none else lastAssigned obj name es
  | _ :: es => lastAssigned obj name es

end Verif.Classes.Spec
