import Verif.Model.Labels

/-!
# Model of the comparison of labels, and of the labels a page depends on

Models the comparisons of `/repo/src/disseminate/label_manager/types/label.py`, and `add_ref_labels` of
`/repo/src/disseminate/tags/ref.py`.

Simplifications: identifiers are text (a comparison of `None` with text raises an exception); the tags of an entry are given as the
list that `flatten` returns.
-/

namespace Verif.RefDeps

open Verif Verif.Labels

/-- `a < b` for texts: code points are compared from the left. -/
def strLt : Str → Str → Bool
  | _, [] => false
  | [], _ :: _ => true
  | a :: s, b :: t => if a = b then strLt s t else decide (a.toNat < b.toNat)

/-- `(a, b) < (a', b')` for texts: the first components that differ are compared. -/
def pairLt (a b : Str × Str) : Bool := if a.1 = b.1 then (if a.2 = b.2 then false else strLt a.2 b.2) else strLt a.1 b.1

/-- `__lt__` (`types/label.py:67-68`). -/
def lt (a b : Label) : Bool := pairLt (a.docId, a.id) (b.docId, b.id)

/-- `__le__` (`types/label.py:70-71`). -/
def le (a b : Label) : Bool :=
  if (a.docId, a.id) = (b.docId, b.id) then true else pairLt (a.docId, a.id) (b.docId, b.id)

/-- `__gt__` (`types/label.py:73-74`). -/
def gt (a b : Label) : Bool := pairLt (b.docId, b.id) (a.docId, a.id)

/-- `__ge__` (`types/label.py:76-77`). -/
def ge (a b : Label) : Bool :=
  if (a.docId, a.id) = (b.docId, b.id) then true else pairLt (b.docId, b.id) (a.docId, a.id)

/-- `__eq__` (`types/label.py:79-80`). -/
def eq (a b : Label) : Bool := decide ((a.docId, a.id) = (b.docId, b.id))

/-- `__ne__` (`types/label.py:82-83`). -/
def ne (a b : Label) : Bool := decide ((a.docId, a.id) ≠ (b.docId, b.id))

/-- The name of the class of a label. -/
def className (l : Label) : Str := if l.content then "ContentLabel".toList else "DocumentLabel".toList

/-- `__hash__` (`types/label.py:85-86`); `h` is Python's `hash`. -/
def hash (h : Str × Str × Str → Nat) (l : Label) : Nat := h (className l, l.docId, l.id)

/-- `label in s` for a set of labels: an element with the same hash that is equal. -/
def inSet (h : Str × Str × Str → Nat) (l : Label) (s : List Label) : Bool := s.any fun x => hash h x == hash h l && eq x l

/-- `sorted(labels)`: Python's sort is stable and uses `<` only; here it is computed by insertion. -/
def insertSorted (a : Label) : List Label → List Label
  | [] => [a]
  | b :: l => if lt b a then b :: insertSorted a l else a :: b :: l

/-- See `insertSorted`. -/
def sorted : List Label → List Label
  | [] => []
  | a :: l => insertSorted a (sorted l)

/-- A tag in the list of `flatten`: a `Ref` with its `label_id`, or another tag. -/
inductive Flat
  | ref (labelId : Option Str)
  | other
deriving Repr, DecidableEq

/-- The entries of a context: tags, as the lists of `flatten`, and other values. -/
abbrev Entries := Dict Str (Option (List Flat))

/-- `ref_label_ids`, as a list with repetitions, after `discard(None)` (`tags/ref.py:23-33`). -/
def refIds (e : Entries) : List Str :=
  e.flatMap fun kv =>
    match kv.2 with
    | none => []
    | some tags => tags.filterMap fun
      | .ref i => i
      | .other => none

/-- `add_ref_labels` (`tags/ref.py:15-40`): `ids` are the elements of the set `ref_label_ids`, in the order in which Python iterates
over it; `none` for `LabelNotFound`. -/
def addRefLabels (m : Option Manager) (env : Env) (sep : Str) (ids : List Str) : Option (List Label) :=
  match m with
  | none => some []
  | some m =>
    if ids = [] then some []
    else match (m.getLabelsById env sep ids).2 with
      | none => none
      | some ls => some (sorted ls)

end Verif.RefDeps
