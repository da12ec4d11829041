import Verif.Model.Basic

/-!
# Python dicts and sorting

A Python `dict` keeps its keys in the order of insertion (Python ≥ 3.7); it is
modelled as the list of its items. Setting an existing key keeps its place,
setting a new key appends it.
-/

namespace Verif

/-- A Python `dict`: its items in insertion order. -/
abbrev Dict (κ α : Type) := List (κ × α)

namespace Dict

variable {κ α : Type} [DecidableEq κ]

/-- `d.get(k)` of the built-in dict. -/
def get? : Dict κ α → κ → Option α
  | [], _ => none
  | (k', v) :: d, k => if k' = k then some v else get? d k

/-- `d[k] = v`. -/
def set : Dict κ α → κ → α → Dict κ α
  | [], k, v => [(k, v)]
  | (k', v') :: d, k, v => if k' = k then (k', v) :: d else (k', v') :: set d k v

/-- `del d[k]` / `d.pop(k)`, ignoring a missing key. -/
def del : Dict κ α → κ → Dict κ α
  | [], _ => []
  | (k', v') :: d, k => if k' = k then d else (k', v') :: del d k

/-- `d.keys()`. -/
def keys (d : Dict κ α) : List κ := d.map Prod.fst

/-- `k in d`. -/
def has (d : Dict κ α) (k : κ) : Bool := (d.get? k).isSome

/-- `d.update(items)`. -/
def update (d : Dict κ α) (items : List (κ × α)) : Dict κ α :=
  items.foldl (fun d kv => d.set kv.1 kv.2) d

end Dict

/-- `sorted(l, key=key)` for a key with values in the integers `≥ 0`: Python's sort
is stable, and a stable sort has only one result, here computed by insertion. -/
def sortedInsert {α : Type} (key : α → Nat) (a : α) : List α → List α
  | [] => [a]
  | b :: l => if key a ≤ key b then a :: b :: l else b :: sortedInsert key a l

/-- See `sortedInsert`. -/
def sortedBy {α : Type} (key : α → Nat) : List α → List α
  | [] => []
  | a :: l => sortedInsert key a (sortedBy key l)

end Verif
