import Verif.Model.Context

/-!
# Specification of context updates by value

What a context holds, without addresses: immutable values, lists, sets, and dicts
of immutable values. `FCtx` is the content of a context whose dict entries hold
only immutable values. (The items of a list or set may be anything; they are
never changed.)
-/

namespace Verif.Context.Spec

open Verif Verif.Context

inductive FVal where
  | atom (a : Atom)
  | list (l : List Value)
  | set (l : List Value)
  | dict (d : Dict Str Atom)
deriving Repr, DecidableEq

abbrev FCtx := Dict Str FVal

/-- The object that holds a mutable value. -/
def FVal.obj : FVal → Option Obj
  | .atom _ => none
  | .list l => some (.list l)
  | .set l => some (.set l)
  | .dict d => some (.dict (d.map fun kv => (kv.1, .atom kv.2)))

/-- The value `v` on heap `h` is `f`. -/
def Shows (h : Heap) (v : Value) (f : FVal) : Prop :=
  match f with
  | .atom a => v = .atom a
  | f => ∃ o, v = .ref o ∧ h[o]? = f.obj

/-- The entries `d` on heap `h` have the content `F`. -/
def ShowsAll (h : Heap) (d : Dict Str Value) (F : FCtx) : Prop :=
  d.keys = F.keys ∧ ∀ k v f, d.get? k = some v → F.get? k = some f → Shows h v f

/-- The dict at address `a` on heap `h` has the content `F`. -/
def Content (h : Heap) (a : Nat) (F : FCtx) : Prop :=
  ∃ d, h[a]? = some (.dict d) ∧ d.keys.Nodup ∧ ShowsAll h d F

/-- The dict at address `a` on heap `h` has the entry `k` with the value `v`. -/
def Holds (h : Heap) (a : Nat) (k : Str) (v : Value) : Prop := ∃ d, h[a]? = some (.dict d) ∧ d.get? k = some v

/-- The context at address `a` owns its mutable values: it is none of its own entries,
and no two entries share an object. -/
def Separate (h : Heap) (a : Nat) : Prop :=
  (∀ k, ¬ Holds h a k (.ref a)) ∧ ∀ k k' o, Holds h a k (.ref o) → Holds h a k' (.ref o) → k = k'

/-- The dicts at `a` and `b` share no mutable value. -/
def Disjoint (h : Heap) (a b : Nat) : Prop :=
  ∀ k k' o, Holds h b k (.ref o) → o ≠ a ∧ ¬ Holds h a k' (.ref o)

/-- A program making a new dict with the given content. -/
def build (h : Heap) : FCtx → Heap × Dict Str Value
  | [] => (h, [])
  | (k, f) :: F =>
    match f, f.obj with
    | .atom a, _ => let (h', d) := build h F; (h', (k, .atom a) :: d)
    | _, some obj => let (h', d) := build (h ++ [obj]) F; (h', (k, .ref h.length) :: d)
    | _, none => build h F

/-- What can happen to a context: an update with a dict made for it, or a reset. -/
inductive Op where
  | update (G : FCtx) (overwrite : Bool)
  | reset

def runOp (P : Py) (c : Cls) (self : Nat) (parent : Option Nat) (initial : Nat) (h : Heap) :
    Op → Except Err Heap
  | .update G overwrite =>
    let (h', d) := build h G
    Context.update P c.replace overwrite (h' ++ [.dict d]) self h'.length
  | .reset => Context.reset P c h self parent initial

def runOps (P : Py) (c : Cls) (self : Nat) (parent : Option Nat) (initial : Nat) (h : Heap)
    (ops : List Op) : Except Err Heap :=
  ops.foldlM (runOp P c self parent initial) h

/-- The kinds of values. -/
inductive Kind where
  | none | str | int | float | bool | tag | other (ty : Nat) | list | set | dict
deriving Repr, DecidableEq

def kindAtom : Atom → Kind
  | .none => .none
  | .str _ => .str
  | .int _ => .int
  | .float _ => .float
  | .bool _ => .bool
  | .tag _ _ => .tag
  | .other ty _ => .other ty

def kindObj : Obj → Kind
  | .list _ => .list
  | .set _ => .set
  | .dict _ => .dict

/-- The kind of a value on a heap. -/
def kind (h : Heap) : Value → Option Kind
  | .atom a => some (kindAtom a)
  | .ref o => (h[o]?).map kindObj

/-- The kind of a content. -/
def FVal.kind : FVal → Kind
  | .atom a => kindAtom a
  | .list _ => .list
  | .set _ => .set
  | .dict _ => .dict

/-! ### Updates by value -/

/-- A content as a change for an immutable value: only immutable changes count. -/
def FVal.asValue : FVal → Value
  | .atom a => .atom a
  | _ => .ref 0

def FVal.toList (P : Py) : FVal → Except Err (List Value)
  | .atom (.str s) => .ok ((P.strToList s).map fun x => .atom (.str x))
  | .atom _ => .error .typeError
  | .list l => .ok l
  | .set l => .ok l
  | .dict d => .ok (d.keys.map fun k => .atom (.str k))

def FVal.toDict (P : Py) : FVal → Except Err (Dict Str Atom)
  | .atom (.str s) => .ok ((P.strToDict s).map fun kv => (kv.1, .str kv.2))
  | .dict d => .ok d
  | _ => .error .typeError

/-- What becomes of an immutable value: text replaces text and the content of a tag, a tag replaces a tag; a number is replaced by what
can be read as one, a truth value by a text that can; a value of any other type by one of its type. Otherwise it stays. Changes that are
no number at all, or no text for a truth value, are errors. -/
def changeAtom (P : Py) : Atom → Value → Except Err Atom
  | .str _, .atom (.str t) => .ok (.str t)
  | .tag cls _, .atom (.str t) => .ok (.tag cls t)
  | .tag _ _, .atom (.tag cls t) => .ok (.tag cls t)
  | .bool b, .atom (.str t) => match P.readBool t with
    | some b' => .ok (.bool b')
    | none => .ok (.bool b)
  | .bool _, _ => .error .attributeError
  | .int i, .atom a => match P.toInt a with
    | .ok j => .ok (.int j)
    | .valueError => .ok (.int i)
    | .typeError => .error .typeError
  | .int _, .ref _ => .error .typeError
  | .float i, .atom a => match P.toFloat a with
    | .ok j => .ok (.float j)
    | .valueError => .ok (.float i)
    | .typeError => .error .typeError
  | .float _, .ref _ => .error .typeError
  | .other ty i, .atom (.other ty' j) => .ok (if ty = ty' then .other ty' j else .other ty i)
  | a, _ => .ok a

/-- Whether a value can be in a set. -/
def immutable : Value → Bool
  | .atom _ => true
  | .ref _ => false

/-- The items that are not in the list yet, each once. -/
def fresh : List Value → List Value → List Value
  | _, [] => []
  | l, v :: vs => if v ∈ l then fresh l vs else v :: fresh (l ++ [v]) vs

/-- Update of a dict of immutable values: missing entries are added, others merged. -/
def mergeDict (P : Py) (d changes : Dict Str Atom) : Except Err (Dict Str Atom) :=
  changes.keys.foldlM (fun d k => match changes.get? k with
    | none => .ok d
    | some c => match d.get? k with
      | none => .ok (d.set k c)
      | some a => do let a' ← changeAtom P a (.atom c); .ok (d.set k a')) d

/-- Merging of a change into an existing value. -/
def merge (P : Py) (replaced : Bool) (orig change : FVal) : Except Err FVal :=
  match orig with
  | .atom a => do let a' ← changeAtom P a change.asValue; .ok (.atom a')
  | .list l => do
    let items ← change.toList P
    .ok (.list (items ++ if replaced then [] else l))
  | .set l => do
    let items ← change.toList P
    let l := if replaced then [] else l
    if items.all immutable then .ok (.set (l ++ fresh l items))
    else .error .typeError
  | .dict d => do
    let c ← change.toDict P
    let d' ← mergeDict P (if replaced then [] else d) c
    .ok (.dict d')

/-- One entry of an update. -/
def fupdateKey (P : Py) (replace : List Str) (overwrite : Bool) (G : FCtx) (F : FCtx) (k : Str) :
    Except Err FCtx :=
  match G.get? k with
  | none => .ok F
  | some c => match F.get? k with
    | none => .ok (Dict.set F k c)
    | some o => if !overwrite then .ok F else do
      let v ← merge P (decide (k ∈ replace)) o c
      .ok (Dict.set F k v)

/-- Update of content `F` with the changes `G` for the given keys. -/
def fupdate (P : Py) (replace : List Str) (overwrite : Bool) (F G : FCtx) (keys : List Str) :
    Except Err FCtx :=
  keys.foldlM (fupdateKey P replace overwrite G) F

/-- Reset by value. -/
def freset (P : Py) (c : Cls) (F : FCtx) (parent : Option FCtx) (initial : FCtx) : Except Err FCtx := do
  let F : FCtx := F.filter fun kv => kv.1 ∈ c.exclude
  let F ← match parent with
    | none => pure F
    | some p => fupdate P c.replace true F p (p.keys.filter (· ∉ c.doNotInherit))
  fupdate P c.replace true F initial initial.keys

end Verif.Context.Spec
