import Verif.Model.RefDeps

/-!
# Specification of the order of labels, and of the labels a page depends on
-/

namespace Verif.RefDeps

open Verif Verif.Labels

/-- A text comes before another one in the order of Python: at the first difference its code point is smaller, or it ends first. -/
inductive Before : Str → Str → Prop
  | ends (b : Char) (t : Str) : Before [] (b :: t)
  | here (a b : Char) (s t : Str) : a.toNat < b.toNat → Before (a :: s) (b :: t)
  | later (a : Char) {s t : Str} : Before s t → Before (a :: s) (a :: t)

/-- A label comes before another one: by document, then by identifier. -/
def LabelBefore (a b : Label) : Prop := Before a.docId b.docId ∨ (a.docId = b.docId ∧ Before a.id b.id)

/-- Two labels have the same document and identifier. -/
def Same (a b : Label) : Prop := a.docId = b.docId ∧ a.id = b.id

/-- The tags in the context include a reference to the identifier. -/
def Referenced (e : Entries) (id : Str) : Prop := ∃ k tags, (k, some tags) ∈ e ∧ Flat.ref (some id) ∈ tags

/-- Some order of the set of the identifiers that are referenced. -/
structure OrderOf (e : Entries) (ids : List Str) : Prop where
  once : ids.Nodup
  all : ∀ id, id ∈ ids ↔ Referenced e id

/-- No label of the list comes before one on its left. -/
def InOrder (l : List Label) : Prop := l.Pairwise fun a b => ¬ LabelBefore b a

end Verif.RefDeps
