import Verif.Spec.Context
import Verif.Model.ContextCopy

/-!
# Specification of copies of contexts
-/

namespace Verif.Context.Spec

open Verif Verif.Context

/-- Every reference among the entries of the dict at `a` is to an object. -/
def Sound (h : Heap) (a : Nat) : Prop := ∀ k o, Holds h a k (.ref o) → ∃ obj, h[o]? = some obj

/-- Nothing that was there has changed. -/
def Kept (h h' : Heap) : Prop := ∀ (a : Nat) (obj : Obj), h[a]? = some obj → h'[a]? = some obj

/-- The object at `a` was not there on the heap `h`. -/
def New (h : Heap) (a : Nat) : Prop := h[a]? = none

/-- The value `w` on heap `h'` is the value `v` of heap `h`, for immutable values, or a new object with
the same items or entries. -/
inductive CopyOf (h h' : Heap) : Value → Value → Prop
  | atom (a : Atom) : CopyOf h h' (.atom a) (.atom a)
  | object (o o' : Nat) (obj : Obj) : h[o]? = some obj → h'[o']? = some obj → New h o' →
      CopyOf h h' (.ref o) (.ref o')

/-- The value is of the type. -/
def HasType (h : Heap) : Value → Ty → Prop
  | v, .str => ∃ s, v = .atom (.str s)
  | v, .int => (∃ i, v = .atom (.int i)) ∨ ∃ b, v = .atom (.bool b)
  | v, .float => ∃ i, v = .atom (.float i)
  | v, .bool => ∃ b, v = .atom (.bool b)
  | v, .tag => ∃ c s, v = .atom (.tag c s)
  | v, .other ty => ∃ i, v = .atom (.other ty i)
  | v, .list => ∃ o l, v = .ref o ∧ h[o]? = some (.list l)
  | v, .set => ∃ o l, v = .ref o ∧ h[o]? = some (.set l)
  | v, .dict => ∃ o d, v = .ref o ∧ h[o]? = some (.dict d)

end Verif.Context.Spec
