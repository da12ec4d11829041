import Verif.Model.Dict

/-!
# Model of context dicts

Models `/repo/src/disseminate/context/context.py` on an explicit heap, so that
sharing of mutable objects between contexts is visible.

A Python value is either immutable (an `Atom`) or a reference to a list, set or
dict on the heap.

Simplifications:
* a tag is immutable here and known by its class and the text it was made from; the
  copy of a tag for a new context is the same tag;
* floats are known by a number standing for them; the conversions `int(x)` and
  `float(x)` of immutable values, `str_to_list`, `str_to_dict` and the reading of
  `true`/`false` are parameters (`Py`);
* objects of other types (documents, managers, paths) are known by their type and
  identity, and are not copied;
* a set is a list without repeats; its order has no meaning;
* the entries of the `changes` dict are read before the loop (the loop only
  changes the `changes` dict if that dict is itself an entry of the context).
-/

namespace Verif.Context

open Verif

/-- Immutable values. -/
inductive Atom where
  | none
  | str (s : Str)
  | int (i : Int)
  | float (f : Int)
  | bool (b : Bool)
  | tag (cls : Str) (content : Str)
  | other (ty : Nat) (id : Nat)
deriving Repr, DecidableEq

/-- A value: immutable, or a reference to an object on the heap. -/
inductive Value where
  | atom (a : Atom)
  | ref (addr : Nat)
deriving Repr, DecidableEq

/-- Mutable objects. -/
inductive Obj where
  | list (l : List Value)
  | set (l : List Value)
  | dict (d : Dict Str Value)
deriving Repr, DecidableEq

abbrev Heap := List Obj

/-- The exceptions that `match_update` raises or lets through. -/
inductive Err where
  | tooDeep        -- ContextException (context.py:380-382)
  | typeError
  | attributeError
deriving Repr, DecidableEq

/-- The outcome of `int(x)` or `float(x)`. -/
inductive Conv where
  | ok (i : Int)
  | valueError
  | typeError
deriving Repr, DecidableEq

/-- The conversions used. `readBool s` is `s.lower().strip()` compared to `'false'` and
`'true'` (`context.py:475-479`). -/
structure Py where
  strToList : Str → List Str
  strToDict : Str → Dict Str Str
  toInt : Atom → Conv
  toFloat : Atom → Conv
  readBool : Str → Option Bool

/-- `list(change_value)`, or `str_to_list` for text (`context.py:435-437`,
`context.py:442-444`). Other immutable values are not iterable. -/
def toList (P : Py) (h : Heap) : Value → Except Err (List Value)
  | .atom (.str s) => .ok ((P.strToList s).map fun x => .atom (.str x))
  | .atom _ => .error .typeError
  | .ref o => match h[o]? with
    | some (.list l) => .ok l
    | some (.set l) => .ok l
    | some (.dict d) => .ok (d.keys.map fun k => .atom (.str k))
    | none => .error .typeError

/-- `dict(change_value)`, or `str_to_dict` for text (`context.py:449-451`).
Simplification: `dict()` of a list or set is taken to raise; Python accepts it if
all the items are pairs. -/
def toDict (P : Py) (h : Heap) : Value → Except Err (Dict Str Value)
  | .atom (.str s) => .ok ((P.strToDict s).map fun kv => (kv.1, .atom (.str kv.2)))
  | .atom _ => .error .typeError
  | .ref o => match h[o]? with
    | some (.dict d) => .ok d
    | _ => .error .typeError

/-- The copy of a value for a missing entry (`context.py:399-411`): mutable objects are
copied with their (shallow) `copy` method. -/
def copyVal (h : Heap) : Value → Heap × Value
  | .atom a => (h, .atom a)
  | .ref o => match h[o]? with
    | some obj => (h ++ [obj], .ref h.length)
    | none => (h, .ref o)

/-- `self[key] = value` for the dict at address `self`. -/
def setKey (h : Heap) (self : Nat) (key : Str) (v : Value) : Heap :=
  match h[self]? with
  | some (.dict d) => h.set self (.dict (d.set key v))
  | _ => h

/-- `self[key]`. -/
def getKey (h : Heap) (self : Nat) (key : Str) : Option Value :=
  match h[self]? with
  | some (.dict d) => d.get? key
  | _ => none

/-- `original_value.clear()` (`context.py:424-431`); values without `clear` are kept. -/
def clear (h : Heap) : Value → Heap
  | .atom _ => h
  | .ref o => match h[o]? with
    | some (.list _) => h.set o (.list [])
    | some (.set _) => h.set o (.set [])
    | some (.dict _) => h.set o (.dict [])
    | none => h

/-- `original |= set(items)` (`context.py:445`). -/
def setUnion (l items : List Value) : List Value :=
  items.foldl (fun acc v => if v ∈ acc then acc else acc ++ [v]) l

/-- Only immutable values can be in a set. -/
def hashable : Value → Bool
  | .atom _ => true
  | .ref _ => false

/-- The branches for immutable original values (`context.py:456-496`): the new value,
or the old one if the change does not apply. -/
def mergeAtom (P : Py) (orig : Atom) (change : Value) : Except Err Atom :=
  match orig with
  | .tag cls c => match change with
    | .atom (.str s) => .ok (.tag cls s)
    | .atom (.tag cls' s) => .ok (.tag cls' s)
    | _ => .ok (.tag cls c)
  | .bool b => match change with
    | .atom (.str s) => .ok (.bool ((P.readBool s).getD b))
    | _ => .error .attributeError
  | .int i => match change with
    | .atom a => match P.toInt a with
      | .ok j => .ok (.int j)
      | .valueError => .ok (.int i)
      | .typeError => .error .typeError
    | .ref _ => .error .typeError
  | .float i => match change with
    | .atom a => match P.toFloat a with
      | .ok j => .ok (.float j)
      | .valueError => .ok (.float i)
      | .typeError => .error .typeError
    | .ref _ => .error .typeError
  | .str s => match change with
    | .atom (.str s') => .ok (.str s')
    | _ => .ok (.str s)
  | .none => .ok .none
  | .other ty id => match change with
    | .atom (.other ty' id') => if ty = ty' then .ok (.other ty' id') else .ok (.other ty id)
    | _ => .ok (.other ty id)

/-- The body of the loop (`context.py:388-496`), given the recursive call for nested
dicts. `replace` is the class attribute; a nested plain dict has none
(`context.py:424`). -/
def updateKey (P : Py) (rec : Heap → Nat → Dict Str Value → Except Err Heap)
    (replace : List Str) (overwrite : Bool) (self : Nat) (changes : Dict Str Value)
    (h : Heap) (key : Str) : Except Err Heap :=
  match changes.get? key with
  | none => .ok h
  | some change =>
    match getKey h self key with
    | none =>
      let (h, v) := copyVal h change
      .ok (setKey h self key v)
    | some orig =>
      if !overwrite then .ok h
      else
        let h := if key ∈ replace then clear h orig else h
        match orig with
        | .atom a => do
          let a' ← mergeAtom P a change
          .ok (setKey h self key (.atom a'))
        | .ref o => match h[o]? with
          | some (.list l) => do
            let items ← toList P h change
            .ok (h.set o (.list (items ++ l)))
          | some (.set l) => do
            let items ← toList P h change
            if items.all hashable then .ok (h.set o (.set (setUnion l items)))
            else .error .typeError
          | some (.dict _) => do
            let d ← toDict P h change
            rec h o d
          | none => .ok h

/-- `match_update` (`context.py:322-496`) with a dict of changes. `left` is
`settings.context_max_depth - level`. -/
def matchUpdate (P : Py) : (left : Nat) → (replace : List Str) → (overwrite : Bool) → Heap →
    (self : Nat) → (changes : Dict Str Value) → (keys : List Str) → Except Err Heap
  | 0, _, _, _, _, _, _ => .error .tooDeep
  | left + 1, replace, overwrite, h, self, changes, keys =>
    keys.foldlM (updateKey P (fun h o d => matchUpdate P left [] true h o d d.keys)
      replace overwrite self changes) h

/-- `settings.context_max_depth - 1` (`settings.py:77`). -/
def maxLeft : Nat := 5

/-- The entries of the dict at an address; `{}` if there is none. -/
def entries (h : Heap) (a : Nat) : Dict Str Value :=
  match h[a]? with
  | some (.dict d) => d
  | _ => []

/-- `context.match_update(changes)` for the context at address `self` and the dict at
address `changes`. -/
def update (P : Py) (replace : List Str) (overwrite : Bool) (h : Heap) (self changes : Nat) :
    Except Err Heap :=
  matchUpdate P maxLeft replace overwrite h self (entries h changes) (entries h changes).keys

/-- The class attributes of a context class (`context.py:93-97`). -/
structure Cls where
  replace : List Str
  exclude : List Str
  doNotInherit : List Str

/-- Deletion of all the entries that are not excluded from the reset
(`context.py:246-257`). -/
def removeEntries (c : Cls) (h : Heap) (self : Nat) : Heap :=
  match h[self]? with
  | some (.dict d) => h.set self (.dict (d.filter fun kv => kv.1 ∈ c.exclude))
  | _ => h

/-- `reset` (`context.py:221-269`). The keys to inherit form a set in the code; here
they come in the order of the parent's entries. -/
def reset (P : Py) (c : Cls) (h : Heap) (self : Nat) (parent : Option Nat) (initial : Nat) :
    Except Err Heap := do
  let h := removeEntries c h self
  let h ← match parent with
    | none => pure h
    | some p =>
      let d := entries h p
      matchUpdate P maxLeft c.replace true h self d (d.keys.filter (· ∉ c.doNotInherit))
  update P c.replace true h self initial

/-- The creation of a context (`context.py:101-122`) with the initial values at address
`initial`: a new dict that is then reset. Returns the address of the context. -/
def create (P : Py) (c : Cls) (h : Heap) (parent : Option Nat) (initial : Nat) :
    Except Err (Heap × Nat) := do
  let h' ← reset P c (h ++ [.dict []]) h.length parent initial
  pure (h', h.length)

end Verif.Context
