import Verif.Model.Navigation

/-!
# Specification of navigation links and tables of contents
-/

namespace Verif.Navigation

open Verif Verif.Labels

/-- `b` comes right after `a`. -/
def Follows {α : Type} (l : List α) (a b : α) : Prop := ∃ p q, l = p ++ a :: b :: q

/-- The documents rendered to a target, in reading order. -/
def rendered (t : Str) (docs : List Doc) : List Doc := docs.filter fun d => t ∈ d.targets

/-- `l` is the first label of the document. -/
def IsFirst (labels : List Label) (docId : Str) (l : Label) : Prop :=
  ∃ p q, labels = p ++ l :: q ∧ l.docId = docId ∧ ∀ x ∈ p, x.docId ≠ docId

/-- The labels of one document are not separated by labels of other documents. -/
def Grouped (labels : List Label) : Prop :=
  ∀ p a q b r, labels = p ++ a :: (q ++ b :: r) → a.docId = b.docId → ∀ x ∈ q, x.docId = a.docId

/-- A target is an extension with a leading period. -/
def IsTarget (t ext : Str) : Prop := t = '.' :: ext ∧ ext.head? ≠ some '.' ∧ ext.getLast? ≠ some '.'

/-- The entry `k` of the document is a reference to the first label of the document `e` with `R e`, and there is no
entry otherwise. -/
def Links (labels : List Label) (d : Doc) (k : Str) (R : Doc → Prop) : Prop :=
  ∀ v, d.context.get? k = some v ↔ ∃ e l, R e ∧ IsFirst labels e.docId l ∧ v = .label l.uid

/-- The labels that stay in a list if `stays` tells which ones do, given the labels before. -/
inductive Kept (stays : List Label → Label → Prop) : List Label → List Label → List Label → Prop
  | nil (b : List Label) : Kept stays b [] []
  | keep (b : List Label) (l : Label) (ls ls' : List Label) :
      stays b l → Kept stays (b ++ [l]) ls ls' → Kept stays b (l :: ls) (l :: ls')
  | drop (b : List Label) (l : Label) (ls ls' : List Label) :
      ¬ stays b l → Kept stays (b ++ [l]) ls ls' → Kept stays b (l :: ls) ls'

/-- A label stays in an abbreviated list: it is one of the current document, or the first one of its document. -/
def FirstOrCurrent (doc : Option Str) (before : List Label) (l : Label) : Prop :=
  some l.docId = doc ∨ ∀ b ∈ before, b.docId ≠ l.docId

/-- It is one of the current document, or the label right before is one of another document. -/
def ChangeOrCurrent (doc : Option Str) (before : List Label) (l : Label) : Prop :=
  some l.docId = doc ∨ ∀ b, before.getLast? = some b → b.docId ≠ l.docId

/-- A word is given in a table of contents: one of its words, or anywhere in the text of a tag. -/
def Mentions : TocKind → Str → Prop
  | .words l, w => w ∈ l
  | .text s, w => w <:+: s

/-- A label is one of the given kind, and of the current document or, with 'all', of any document. -/
def Listed (k : TocKind) (doc : Option Str) (kind : String) (l : Label) : Prop :=
  (Mentions k "all".toList ∨ doc = none ∨ some l.docId = doc) ∧ ∃ ks, l.kind = some ks ∧ kind.toList ∈ ks

/-- Headings are asked for. -/
def AsksHeadings (k : TocKind) : Prop := Mentions k "heading".toList ∨ Mentions k "headings".toList

/-- Documents are asked for. -/
def AsksDocuments (k : TocKind) : Prop := Mentions k "document".toList ∨ Mentions k "documents".toList

/-- The words of a text: its parts between spaces. -/
inductive WordsOf (sp : Char → Bool) : Str → List Str → Prop
  | none (s : Str) : (∀ c ∈ s, sp c = true) → WordsOf sp s []
  | last (s w : Str) : (∀ c ∈ s, sp c = true) → w ≠ [] → (∀ c ∈ w, sp c = false) → WordsOf sp (s ++ w) [w]
  | more (s w : Str) (c : Char) (r : Str) (ws : List Str) : (∀ c ∈ s, sp c = true) → w ≠ [] → (∀ c ∈ w, sp c = false) →
      sp c = true → WordsOf sp r ws → WordsOf sp (s ++ (w ++ c :: r)) (w :: ws)

/-- The levels of headings in a table of contents. -/
inductive HasLevel : Str → Nat → Prop
  | title : HasLevel "title".toList 0
  | part : HasLevel "part".toList 1
  | chapter : HasLevel "chapter".toList 2
  | section : HasLevel "section".toList 3
  | subsection : HasLevel "subsection".toList 4
  | subsubsection : HasLevel "subsubsection".toList 5

/-- The levels of a list of labels: that of the heading, or that of the label before. -/
inductive Levels : Nat → List Label → List Nat → Prop
  | nil (n : Nat) : Levels n [] []
  | heading (n m : Nat) (l : Label) (ks : List Str) (k : Str) (ls : List Label) (ns : List Nat) :
      l.kind = some (ks ++ [k]) → HasLevel k m → Levels m ls ns → Levels n (l :: ls) (m :: ns)
  | same (n : Nat) (l : Label) (ks : List Str) (k : Str) (ls : List Label) (ns : List Nat) :
      l.kind = some (ks ++ [k]) → (∀ m, ¬ HasLevel k m) → Levels n ls ns → Levels n (l :: ls) (n :: ns)

end Verif.Navigation
