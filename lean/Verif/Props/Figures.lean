import Verif.Lemmas.Figures

/-!
# C94: the labels of figures and tables
-/

namespace Verif.Figures

open Verif LabelText Labels Labels.Spec

/-! ### An example -/

def sampleExt : Ext := ⟨id, fun s => s.take 3, id, fun c => c = ' '⟩

def cap (id : Option Str) (text : String) : Item := .caption ⟨id, none, text.toList, true⟩

/-- A figure with an identifier and two captions, one of them in a panel; a table without identifier; a caption outside of figures; and
a figure without captions. -/
def sampleItems : List Item :=
  [.figure false (some "f".toList) [.other [cap none "left"], cap (some "r".toList) "right"],
   .other [.figure true none [cap none "numbers"]], cap (some "n".toList) "naked", .figure false (some "g".toList) [.other []]]

example : Flats sampleItems := by simp [sampleItems, Flats, Flat, NoFigures, NoFigure, cap]

/-- The labels of the example, with the identifiers of the elements. -/
example : ((makes sampleExt "::".toList "a".toList Manager.init sampleItems).map fun r =>
      (r.1.labels.map (fun p => (String.ofList p.2.id, p.2.kind.map (·.map String.ofList))),
       (allCaps r.2).map (fun c => c.source.id.map String.ofList), (allFigIds r.2).map (·.map String.ofList))) =
    some ([("f", some ["caption", "figure"]), ("r", some ["caption", "figure"]), ("caption-num", some ["caption", "table"])],
      [some "f", some "r", some "caption-num", some "n"], [none, none, some "g"]) := by
  decide +kernel

/-! ### The theorems -/

theorem pick_newLabels (hash : Str → Str) (items : List Item) : pick (allWanted hash items) = newLabels hash items := rfl

/-- C94. If the figures and tables of a content are not inside each other, each of their captions has one label, in their
order, with the kind and title of the caption and with the identifier of the figure, or its own; captions outside figures
have none. -/
theorem C94_labels (x : Ext) (sep docId : Str) (hs : sep ≠ []) (m : Manager) (hm : Reachable sep m) (items : List Item)
    (hf : Flats items) (hid : ∀ w ∈ newLabels x.hash items, ¬ sep <:+: w.2.1) (m' : Manager) (ds : List Made)
    (h : makes x sep docId m items = some (m', ds)) :
    ∃ ls, m'.values = m.values ++ ls ∧ List.Forall₂ (IsLabel docId) (newLabels x.hash items) ls := by
  obtain ⟨f1, f2⟩ := makes_flat x sep docId items hf m
  cases ha : addAll x sep docId m (newLabels x.hash items) with
  | none => rw [f1 ha] at h; cases h
  | some r =>
    obtain ⟨m1, ls⟩ := r
    obtain ⟨ds', e, _⟩ := f2 m1 ls ha
    rw [e] at h
    cases h
    obtain ⟨_, c2, c3, _⟩ := (addAll_iff x sep docId hs _ hid m hm).1 m' ls ha
    exact ⟨ls, c2, c3⟩

/-- C94. The element of each caption in a figure or table has the identifier of its label, and the element of the figure does not
have it too: a figure keeps its identifier exactly if it has no caption. -/
theorem C94_anchors (x : Ext) (sep docId : Str) (m : Manager) (items : List Item) (hf : Flats items) (m' : Manager)
    (ds : List Made) (h : makes x sep docId m items = some (m', ds)) :
    List.Forall₂ IsCap (allWanted x.hash items) (allCaps ds) ∧ allFigIds ds = allKept items := by
  obtain ⟨f1, f2⟩ := makes_flat x sep docId items hf m
  cases ha : addAll x sep docId m (newLabels x.hash items) with
  | none => rw [f1 ha] at h; cases h
  | some r =>
    obtain ⟨m1, ls⟩ := r
    obtain ⟨ds', e, e2, e3⟩ := f2 m1 ls ha
    rw [e] at h
    cases h
    refine ⟨?_, e3⟩
    rw [e2]
    have : ∀ ws : List (Option (List Str × Str) × Source), List.Forall₂ IsCap ws (ws.map capOf) := by
      intro ws
      induction ws with
      | nil => exact .nil
      | cons w ws ih =>
        refine .cons ?_ ih
        obtain ⟨_ | ⟨k, i⟩, t⟩ := w
        · exact rfl
        · exact ⟨rfl, rfl, rfl⟩
    exact this _

/-- C94. It fails exactly if two captions are to have the same identifier or one of them is that of another label of the
document. -/
theorem C94_total (x : Ext) (sep docId : Str) (hs : sep ≠ []) (m : Manager) (hm : Reachable sep m) (items : List Item)
    (hf : Flats items) (hid : ∀ w ∈ newLabels x.hash items, ¬ sep <:+: w.2.1) :
    (∃ r, makes x sep docId m items = some r) ↔
      ((newLabels x.hash items).map (·.2.1)).Nodup ∧
        ∀ w ∈ newLabels x.hash items, ∀ l ∈ m.values, l.docId = docId → l.id ≠ w.2.1 := by
  obtain ⟨f1, f2⟩ := makes_flat x sep docId items hf m
  obtain ⟨a1, a2⟩ := addAll_iff x sep docId hs _ hid m hm
  cases ha : addAll x sep docId m (newLabels x.hash items) with
  | none =>
    constructor
    · rintro ⟨r, h⟩
      rw [f1 ha] at h
      cases h
    · intro h
      exact absurd h (a2 ha)
  | some r =>
    obtain ⟨m1, ls⟩ := r
    obtain ⟨_, _, _, c4, c5⟩ := a1 m1 ls ha
    obtain ⟨ds', e, _⟩ := f2 m1 ls ha
    exact ⟨fun _ => ⟨c4, c5⟩, fun _ => ⟨_, e⟩⟩

theorem add_twice (m m' : Manager) (sep id : Str) (k k' : Option (List Str)) (doc : Str) (c c' : Bool) (t t' : Str) (l : Label)
    (h : m.addLabel sep id k doc c t = (m', some l)) : (m'.addLabel sep id k' doc c' t').2 = none := by
  unfold Manager.addLabel at h ⊢
  simp only [] at h ⊢
  by_cases hh : Dict.has m.labels ((parseId sep id).1.getD doc, (parseId sep id).2)
  · rw [if_pos hh] at h; cases h
  · rw [if_neg hh] at h
    cases h
    rw [if_pos]
    simp [Dict.has, Dict.get?_set]

/-- Finding: a figure without identifier around a table or figure with a caption is always an error: the label of the
caption is made twice. So the theorems above are about figures that are not inside each other. -/
theorem C94_nested_refuted (x : Ext) (sep docId : Str) (m : Manager) (outer inner : Bool) (id : Option Str) (t : Source) :
    makes x sep docId m [.figure outer none [.figure inner id [.caption t]]] = none := by
  simp only [makes, make, relabels, relabel]
  rcases hc : createLabel x sep docId m (kindOf inner) (captionId x id t) t with ⟨m1, _ | l⟩
  · rfl
  · simp only [relabels, relabel]
    have : captionId x none { t with id := some (captionId x id t) } = captionId x id t := rfl
    rw [this]
    have h2 := add_twice m m1 sep (captionId x id t) (some (kindOf inner)) (some (kindOf outer)) docId true true _
      (t.short.getD (x.condense t.text)) l hc
    have h3 : (createLabel x sep docId m1 (kindOf outer) (captionId x id t) { t with id := some (captionId x id t) }).2 = none := h2
    rcases hd : createLabel x sep docId m1 (kindOf outer) (captionId x id t) { t with id := some (captionId x id t) } with ⟨m2, l2⟩
    rw [hd] at h3
    cases h3
    rfl

/-- Finding: if the outer figure has an identifier, the caption has two labels, and no element has the identifier of the
first of them. -/
theorem C94_two_labels_refuted :
    ((makes sampleExt "::".toList "a".toList Manager.init
        [.figure false (some "f".toList) [.figure true (some "t".toList) [cap none "numbers"]]]).map fun r =>
      (r.1.labels.map (fun p => String.ofList p.2.id), (allCaps r.2).map (fun c => c.source.id.map String.ofList),
       allFigIds r.2)) = some (["t", "f"], [some "f"], [none, none]) := by
  decide +kernel

end Verif.Figures
