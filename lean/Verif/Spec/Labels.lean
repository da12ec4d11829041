import Verif.Model.Labels

/-!
# Specification of label orders, numbers and headings
-/

namespace Verif.Labels.Spec

open Verif Verif.Labels

/-- The labels of the documents, document by document; labels of other documents are left out, and the labels of
one document keep their order. -/
def byDocument : List Str → List Label → List Label
  | [], _ => []
  | d :: ds, ls => ls.filter (fun l => l.docId = d) ++ byDocument ds (ls.filter fun l => l.docId ≠ d)

/-- What a user gives a label, and its identity; not what a registration sets. -/
structure Given where
  uid : Nat
  docId : Str
  id : Str
  kind : Option (List Str)
  content : Bool
  title : Str
deriving DecidableEq, Repr

def given (l : Label) : Given := ⟨l.uid, l.docId, l.id, l.kind, l.content, l.title⟩

/-- A kind `e` is configured to reset the numbers of kind `k`. -/
def Resets (resets : Dict Str (List Str)) (e k : Str) : Prop := ∃ zs, resets.get? e = some zs ∧ k ∈ zs

instance (resets : Dict Str (List Str)) (e k : Str) : Decidable (Resets resets e k) :=
  match h : resets.get? e with
  | none => isFalse (by rintro ⟨zs, h1, _⟩; rw [h] at h1; simp at h1)
  | some zs =>
    if hk : k ∈ zs then isTrue ⟨zs, h, hk⟩
    else isFalse (by rintro ⟨zs', h1, h2⟩; rw [h] at h1; simp at h1; subst h1; exact hk h2)

/-- The number of kind `k` after the kinds `evs` have come up in this order: how often `k` came up since
the last kind that resets it. -/
def number (resets : Dict Str (List Str)) (evs : List Str) (k : Str) : Nat :=
  (evs.reverse.takeWhile fun e => ¬ Resets resets e k).count k

/-- The kinds of a list of labels, in order. -/
def kinds (ls : List Label) : List Str := ls.flatMap fun l => l.kind.getD []

/-- The name of a rank. -/
def name : Rank → Str
  | .part => "part".toList
  | .chapter => "chapter".toList
  | .section => "section".toList
  | .subsection => "subsection".toList
  | .subsubsection => "subsubsection".toList

/-- A part is above a chapter, and so on. -/
def level : Rank → Nat
  | .part => 0
  | .chapter => 1
  | .section => 2
  | .subsection => 3
  | .subsubsection => 4

/-- A label is a heading of rank `r`: its most specific kind is that rank. -/
def IsHeading (l : Label) (r : Rank) : Prop := l.content = true ∧ ∃ ks, l.kind = some (ks ++ [name r])

/-- In a list of labels, the heading with identity `u` encloses the end of the list: it is the last heading of
rank `r`, and no heading of a higher rank comes after it. -/
def Encloses (ls : List Label) (r : Rank) (u : Nat) : Prop :=
  ∃ a h b, ls = a ++ h :: b ∧ h.uid = u ∧ IsHeading h r ∧
    ∀ x ∈ b, ∀ q, IsHeading x q → level r < level q

end Verif.Labels.Spec
