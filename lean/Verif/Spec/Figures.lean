import Verif.Model.Figures
import Verif.Spec.LabelText
import Verif.Spec.Labels

/-!
# Specification of the labels of figures and tables
-/

namespace Verif.Figures

open Verif LabelText Labels

mutual
/-- The captions in a tag, at any depth and in order. -/
def captions : Item → List Source
  | .caption t => [t]
  | .figure _ _ items => allCaptions items
  | .other items => allCaptions items

def allCaptions : List Item → List Source
  | [] => []
  | i :: is => captions i ++ allCaptions is
end

mutual
/-- There is no figure or table in a tag. -/
def NoFigure : Item → Prop
  | .caption _ => True
  | .figure _ _ _ => False
  | .other items => NoFigures items

def NoFigures : List Item → Prop
  | [] => True
  | i :: is => NoFigure i ∧ NoFigures is
end

mutual
/-- Figures and tables are not inside each other. -/
def Flat : Item → Prop
  | .caption _ => True
  | .figure _ _ items => NoFigures items
  | .other items => Flats items

def Flats : List Item → Prop
  | [] => True
  | i :: is => Flat i ∧ Flats is
end

/-- The kind of the label of a caption. -/
def labelKind (table : Bool) : List Str := ["caption".toList, if table then "table".toList else "figure".toList]

mutual
/-- The captions with the kind and the identifier of the label they are to have: none outside figures and tables; the first
caption of a figure has that of the figure, if it has one. -/
def wanted (hash : Str → Str) : Item → List (Option (List Str × Str) × Source)
  | .caption t => [(none, t)]
  | .figure table id items =>
    ((captionIds hash id (allCaptions items)).map fun i => some (labelKind table, i)).zip (allCaptions items)
  | .other items => allWanted hash items

def allWanted (hash : Str → Str) : List Item → List (Option (List Str × Str) × Source)
  | [] => []
  | i :: is => wanted hash i ++ allWanted hash is
end

mutual
/-- The attributes `id` that the figures and tables are to keep: those that no caption takes. -/
def kept : Item → List (Option Str)
  | .caption _ => []
  | .figure _ id items => [if allCaptions items = [] then id else none]
  | .other items => allKept items

def allKept : List Item → List (Option Str)
  | [] => []
  | i :: is => kept i ++ allKept is
end

mutual
/-- The captions that are made, in order. -/
def caps : Made → List Cap
  | .caption c => [c]
  | .figure _ _ items => allCaps items
  | .other items => allCaps items

def allCaps : List Made → List Cap
  | [] => []
  | d :: ds => caps d ++ allCaps ds
end

mutual
/-- The attributes `id` of the figures and tables that are made. -/
def figIds : Made → List (Option Str)
  | .caption _ => []
  | .figure _ id items => id :: allFigIds items
  | .other items => allFigIds items

def allFigIds : List Made → List (Option Str)
  | [] => []
  | d :: ds => figIds d ++ allFigIds ds
end

/-- The labels that are to be made: kind, identifier and caption. -/
def newLabels (hash : Str → Str) (items : List Item) : List (List Str × Str × Source) :=
  (allWanted hash items).filterMap fun p => p.1.map fun k => (k.1, k.2, p.2)

/-- A label is that of a caption. -/
def IsLabel (docId : Str) (w : List Str × Str × Source) (l : Label) : Prop :=
  l.docId = docId ∧ l.kind = some w.1 ∧ l.id = w.2.1 ∧ (∀ s, w.2.2.short = some s → l.title = s) ∧
    (w.2.2.short = none → IsTitle w.2.2.text l.title)

/-- A caption that is made is that which is wanted: its element has the identifier of its label. -/
def IsCap (w : Option (List Str × Str) × Source) (c : Cap) : Prop :=
  match w.1 with
  | none => c = ⟨w.2, none, none⟩
  | some (k, i) => c.source = { w.2 with id := some i } ∧ c.labelId = some i ∧ c.kind = some k

end Verif.Figures
