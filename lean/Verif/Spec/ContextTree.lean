import Verif.Spec.Context

/-!
# Specification of context updates by value, at any nesting

A `Tree` is what a value holds, without addresses. `Reads` says which tree a value on the heap holds and which objects it is
made of. The update of a tree is given by rules, one for each kind of entry.
-/

namespace Verif.Context.Spec

open Verif Verif.Context

/-- A value without addresses: immutable, a list, a set (of immutable values) or a dict. -/
inductive Tree where
  | atom (a : Atom)
  | list (l : List Tree)
  | set (l : List Atom)
  | dict (d : List (Str × Tree))

mutual
/-- The value `v` on heap `h` holds the tree; `fp` lists the addresses of its objects, one for each place in the tree. -/
def Reads (h : Heap) : Tree → Value → List Nat → Prop
  | .atom a, v, fp => v = .atom a ∧ fp = []
  | .list ts, v, fp => ∃ o l fp', v = .ref o ∧ h[o]? = some (.list l) ∧ fp = o :: fp' ∧ ReadsAll h ts l fp'
  | .set as, v, fp => ∃ o, v = .ref o ∧ h[o]? = some (.set (as.map .atom)) ∧ fp = [o]
  | .dict ts, v, fp => ∃ o d fp', v = .ref o ∧ h[o]? = some (.dict d) ∧ fp = o :: fp' ∧ (d.map Prod.fst).Nodup ∧ ReadsDict h ts d fp'

/-- The values of a list hold the trees. -/
def ReadsAll (h : Heap) : List Tree → List Value → List Nat → Prop
  | [], l, fp => l = [] ∧ fp = []
  | t :: ts, l, fp => ∃ v l' fp1 fp2, l = v :: l' ∧ fp = fp1 ++ fp2 ∧ Reads h t v fp1 ∧ ReadsAll h ts l' fp2

/-- The entries of a dict hold the trees. -/
def ReadsDict (h : Heap) : List (Str × Tree) → List (Str × Value) → List Nat → Prop
  | [], d, fp => d = [] ∧ fp = []
  | (k, t) :: ts, d, fp => ∃ v d' fp1 fp2, d = (k, v) :: d' ∧ fp = fp1 ++ fp2 ∧ Reads h t v fp1 ∧ ReadsDict h ts d' fp2
end

/-- The items a change has for a list or a set. -/
inductive Items (P : Py) : Tree → List Tree → Prop
  | text (s : Str) : Items P (.atom (.str s)) ((P.strToList s).map fun x => .atom (.str x))
  | list (l : List Tree) : Items P (.list l) l
  | set (l : List Atom) : Items P (.set l) (l.map .atom)
  | dict (d : List (Str × Tree)) : Items P (.dict d) (d.map fun kv => .atom (.str kv.1))

/-- The entries a change has for a dict. -/
inductive Entries (P : Py) : Tree → List (Str × Tree) → Prop
  | text (s : Str) : Entries P (.atom (.str s)) ((P.strToDict s).map fun kv => (kv.1, .atom (.str kv.2)))
  | dict (d : List (Str × Tree)) : Entries P (.dict d) d

/-- What an immutable value becomes. -/
inductive Converted (P : Py) : Atom → Tree → Atom → Prop
  | text (s s' : Str) : Converted P (.str s) (.atom (.str s')) (.str s')
  | textKept (s : Str) (c : Tree) : (∀ s', c ≠ .atom (.str s')) → Converted P (.str s) c (.str s)
  | int (i j : Int) (a : Atom) : P.toInt a = .ok j → Converted P (.int i) (.atom a) (.int j)
  | intKept (i : Int) (a : Atom) : P.toInt a = .valueError → Converted P (.int i) (.atom a) (.int i)
  | float (i j : Int) (a : Atom) : P.toFloat a = .ok j → Converted P (.float i) (.atom a) (.float j)
  | floatKept (i : Int) (a : Atom) : P.toFloat a = .valueError → Converted P (.float i) (.atom a) (.float i)
  | bool (b b' : Bool) (s : Str) : P.readBool s = some b' → Converted P (.bool b) (.atom (.str s)) (.bool b')
  | boolKept (b : Bool) (s : Str) : P.readBool s = none → Converted P (.bool b) (.atom (.str s)) (.bool b)
  | tagText (cls c s : Str) : Converted P (.tag cls c) (.atom (.str s)) (.tag cls s)
  | tag (cls c cls' c' : Str) : Converted P (.tag cls c) (.atom (.tag cls' c')) (.tag cls' c')
  | tagKept (cls c : Str) (t : Tree) : (∀ s, t ≠ .atom (.str s)) → (∀ x y, t ≠ .atom (.tag x y)) → Converted P (.tag cls c) t (.tag cls c)
  | none (c : Tree) : Converted P .none c .none
  | other (ty id id' : Nat) : Converted P (.other ty id) (.atom (.other ty id')) (.other ty id')
  | otherKept (ty id : Nat) (c : Tree) : (∀ id', c ≠ .atom (.other ty id')) → Converted P (.other ty id) c (.other ty id)

/-- What a value becomes; `upd` is the update of dicts. -/
inductive Changed (P : Py) (upd : List (Str × Tree) → List (Str × Tree) → List (Str × Tree) → Prop) : Tree → Tree → Tree → Prop
  | atom (a a' : Atom) (c : Tree) : Converted P a c a' → Changed P upd (.atom a) c (.atom a')
  | list (l items : List Tree) (c : Tree) : Items P c items → Changed P upd (.list l) c (.list (items ++ l))
  | set (l items m : List Atom) (c : Tree) : Items P c (items.map .atom) → (∀ x, x ∈ m ↔ x ∈ l ∨ x ∈ items) →
      Changed P upd (.set l) c (.set m)
  | dict (d e d' : List (Str × Tree)) (c : Tree) : Entries P c e → upd d e d' → Changed P upd (.dict d) c (.dict d')

/-- A container without its content. -/
def emptied : Tree → Tree
  | .list _ => .list []
  | .set _ => .set []
  | .dict _ => .dict []
  | .atom a => .atom a

/-- What the entry of a key becomes: before, change, after. -/
inductive Entry (P : Py) (upd : List (Str × Tree) → List (Str × Tree) → List (Str × Tree) → Prop) (replaced overwrite : Bool) :
    Option Tree → Option Tree → Option Tree → Prop
  | unchanged (o : Option Tree) : Entry P upd replaced overwrite o none o
  | new (t : Tree) : Entry P upd replaced overwrite none (some t) (some t)
  | kept (o c : Tree) : overwrite = false → Entry P upd replaced overwrite (some o) (some c) (some o)
  | changed (o c r : Tree) : overwrite = true → Changed P upd (if replaced then emptied o else o) c r →
      Entry P upd replaced overwrite (some o) (some c) (some r)

/-- The value of a key. -/
def lookup (d : List (Str × Tree)) (k : Str) : Option Tree := (d.find? fun kt => kt.1 = k).map Prod.snd

/-- The dict `F` updated with the changes `G` is `F'`, with at most `n` dicts inside each other. The keys of `F` come first, then
the new ones. -/
def Updated (P : Py) : (n : Nat) → (replace : List Str) → (overwrite : Bool) →
    List (Str × Tree) → List (Str × Tree) → List (Str × Tree) → Prop
  | 0, _, _, _, _, _ => False
  | n + 1, replace, overwrite, F, G, F' =>
    F'.map Prod.fst = F.map Prod.fst ++ (G.map Prod.fst).filter (fun k => k ∉ F.map Prod.fst) ∧
    ∀ k, Entry P (Updated P n [] true) (decide (k ∈ replace)) overwrite (lookup F k) (lookup G k) (lookup F' k)

/-- The kind of a tree. -/
def Tree.kind : Tree → Kind
  | .atom a => kindAtom a
  | .list _ => .list
  | .set _ => .set
  | .dict _ => .dict

/-- The value at the end of a path of keys. -/
def at? : Tree → List Str → Option Tree
  | t, [] => some t
  | .dict d, k :: ks => (lookup d k).bind fun t => at? t ks
  | _, _ :: _ => none

end Verif.Context.Spec
