import Verif.Model.Context

/-!
# Model of copies of contexts

Models `filter`, `__copy__` and `is_valid` of
`/repo/src/disseminate/context/context.py` on the heap of `Model/Context.lean`,
with the simplifications given there.
-/

namespace Verif.Context

open Verif

/-- `context.filter(keys)` (`context.py:498-518`): a new, empty dict of the same class is updated with
the entries of the context for the keys. Returns the address of the new context. The keys are an
iterable in the code and taken in their order here. -/
def filtered (P : Py) (c : Cls) (h : Heap) (ctx : Nat) (keys : List Str) : Except Err (Heap × Nat) := do
  let h' ← matchUpdate P maxLeft c.replace true (h ++ [.dict []]) h.length (entries h ctx) keys
  pure (h', h.length)

/-- `copy.copy(context)` (`context.py:130-140`): a new dict with the entries of the context. The parent
context and the initial values are those of the context; in this model they are given to each
`reset`. Returns the address of the new context. -/
def copied (h : Heap) (ctx : Nat) : Heap × Nat :=
  (h ++ [.dict (entries h ctx)], h.length)

/-- The types of the class attribute `validation_types` (`context.py:91`). -/
inductive Ty where
  | str | int | float | bool | tag | list | set | dict
  | other (ty : Nat)
deriving Repr, DecidableEq

/-- `isinstance(value, value_type)` (`context.py:312`). A truth value is also a number.
Simplification: the classes of tags and of other objects have no subclasses of their own here. -/
def isInstance (h : Heap) (v : Value) (t : Ty) : Bool :=
  match v with
  | .atom (.str _) => t == .str
  | .atom (.int _) => t == .int
  | .atom (.float _) => t == .float
  | .atom (.bool _) => t == .bool || t == .int
  | .atom (.tag _ _) => t == .tag
  | .atom (.other ty _) => t == .other ty
  | .atom .none => false
  | .ref o => match h[o]? with
    | some (.list _) => t == .list
    | some (.set _) => t == .set
    | some (.dict _) => t == .dict
    | none => false

/-- The loop of `is_valid` (`context.py:299-320`). -/
def validLoop (types : Dict Str (Option Ty)) (mustExist : Bool) (h : Heap) (d : Dict Str Value) : List Str → Bool
  | [] => true
  | key :: keys =>
    match d.get? key with
    | none => if mustExist then false else validLoop types mustExist h d keys
    | some v =>
      match (types.get? key).join with
      | none => validLoop types mustExist h d keys
      | some t => if isInstance h v t then validLoop types mustExist h d keys else false

/-- `context.is_valid(*keys, must_exist=...)` (`context.py:271-320`). -/
def isValid (types : Dict Str (Option Ty)) (h : Heap) (ctx : Nat) (keys : List Str) (mustExist : Bool) : Bool :=
  let keys := if keys.length = 0 then types.keys else keys
  validLoop types mustExist h (entries h ctx) keys

end Verif.Context
