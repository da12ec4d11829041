import Verif.Spec.Figures
import Verif.Props.LabelText

/-!
# Lemmas on the labels of figures and tables
-/

namespace Verif.Figures

open Verif LabelText Labels Labels.Spec

/-- The labels are added one after the other. -/
def addAll (x : Ext) (sep docId : Str) : Manager → List (List Str × Str × Source) → Option (Manager × List Label)
  | m, [] => some (m, [])
  | m, (k, i, t) :: ws =>
    match createLabel x sep docId m k i t with
    | (_, none) => none
    | (m, some l) =>
      match addAll x sep docId m ws with
      | none => none
      | some (m, ls) => some (m, l :: ls)

theorem addAll_append (x : Ext) (sep docId : Str) (a b : List (List Str × Str × Source)) : ∀ m,
    addAll x sep docId m (a ++ b) =
      match addAll x sep docId m a with
      | none => none
      | some (m, ls) =>
        match addAll x sep docId m b with
        | none => none
        | some (m, ls') => some (m, ls ++ ls') := by
  induction a with
  | nil =>
    intro m
    simp only [List.nil_append, addAll]
    cases addAll x sep docId m b with
    | none => rfl
    | some r => rfl
  | cons w a ih =>
    intro m
    obtain ⟨k, i, t⟩ := w
    simp only [List.cons_append, addAll]
    rcases createLabel x sep docId m k i t with ⟨m', _ | l⟩
    · rfl
    · simp only [ih m']
      cases addAll x sep docId m' a with
      | none => rfl
      | some r =>
        obtain ⟨m'', ls⟩ := r
        simp only []
        cases addAll x sep docId m'' b with
        | none => rfl
        | some r => rfl

/-- The identifiers of captions, one by one. -/
def ids (hash : Str → Str) : Option Str → List Source → List (Str × Source)
  | _, [] => []
  | give, t :: ts => (give.getD (ownId hash t), t) :: ids hash none ts

/-- What is left for the next captions. -/
def left (give : Option Str) (ts : List Source) : Option Str := if ts = [] then give else none

theorem ids_append (hash : Str → Str) (a b : List Source) : ∀ give,
    ids hash give (a ++ b) = ids hash give a ++ ids hash (left give a) b := by
  induction a with
  | nil => intro give; rfl
  | cons t a ih =>
    intro give
    simp only [List.cons_append, ids, ih none]
    have : left none a = left give (t :: a) := by simp [left]
    rw [this]

theorem left_append (give : Option Str) (a b : List Source) : left give (a ++ b) = left (left give a) b := by
  cases a with
  | nil => simp [left]
  | cons t a => cases b <;> simp [left]

theorem ids_none (hash : Str → Str) (ts : List Source) : ids hash none ts = (ts.map (ownId hash)).zip ts := by
  induction ts with
  | nil => rfl
  | cons t ts ih => simp [ids, ih]

theorem ids_zip (hash : Str → Str) (give : Option Str) (ts : List Source) :
    (captionIds hash give ts).zip ts = ids hash give ts := by
  cases give with
  | none => rw [ids_none]; cases ts <;> rfl
  | some i =>
    cases ts with
    | nil => rfl
    | cons t ts => simp [captionIds, ids, ids_none]

/-- The labels for captions in a figure. -/
def entries (hash : Str → Str) (kind : List Str) (give : Option Str) (ts : List Source) : List (List Str × Str × Source) :=
  (ids hash give ts).map fun p => (kind, p.1, p.2)

theorem entries_append (hash : Str → Str) (kind : List Str) (give : Option Str) (a b : List Source) :
    entries hash kind give (a ++ b) = entries hash kind give a ++ entries hash kind (left give a) b := by
  simp only [entries, ids_append, List.map_append]

/-- The captions of a figure, with labels. -/
def capsOf (hash : Str → Str) (kind : List Str) (give : Option Str) (ts : List Source) : List Cap :=
  (ids hash give ts).map fun p => ⟨{ p.2 with id := some p.1 }, some p.1, some kind⟩

theorem capsOf_append (hash : Str → Str) (kind : List Str) (give : Option Str) (a b : List Source) :
    capsOf hash kind give (a ++ b) = capsOf hash kind give a ++ capsOf hash kind (left give a) b := by
  simp only [capsOf, ids_append, List.map_append]

mutual
/-- Tags without labels. -/
def embed : Item → Made
  | .caption t => .caption ⟨t, none, none⟩
  | .figure b i items => .figure b i (embeds items)
  | .other items => .other (embeds items)

def embeds : List Item → List Made
  | [] => []
  | i :: is => embed i :: embeds is
end

mutual
theorem make_plain (x : Ext) (sep docId : Str) (m : Manager) : ∀ i, NoFigure i → make x sep docId m i = some (m, embed i)
  | .caption t, _ => rfl
  | .figure _ _ _, h => h.elim
  | .other items, h => by
    rw [NoFigure] at h
    rw [make, makes_plain x sep docId m items h, embed]

theorem makes_plain (x : Ext) (sep docId : Str) (m : Manager) : ∀ is, NoFigures is → makes x sep docId m is = some (m, embeds is)
  | [], _ => rfl
  | i :: is, h => by
    rw [NoFigures] at h
    rw [makes, make_plain x sep docId m i h.1]
    simp only [makes_plain x sep docId m is h.2]
    rw [embeds]
end

theorem captionId_eq (x : Ext) (give : Option Str) (t : Source) : captionId x give t = give.getD (ownId x.hash t) := by
  cases give with
  | some i => rfl
  | none => cases h : t.id <;> simp [captionId, ownId, h]

mutual
theorem relabel_embed (x : Ext) (sep docId : Str) (kind : List Str) : ∀ i, NoFigure i → ∀ m give,
    (addAll x sep docId m (entries x.hash kind give (captions i)) = none → relabel x sep docId kind m give (embed i) = none) ∧
    ∀ m' ls, addAll x sep docId m (entries x.hash kind give (captions i)) = some (m', ls) →
      ∃ d, relabel x sep docId kind m give (embed i) = some (m', left give (captions i), d) ∧
        caps d = capsOf x.hash kind give (captions i) ∧ figIds d = []
  | .caption t, _, m, give => by
    simp only [captions, entries, ids, List.map_cons, List.map_nil, addAll, embed, relabel, captionId_eq]
    rcases createLabel x sep docId m kind (give.getD (ownId x.hash t)) t with ⟨m', _ | l⟩
    · exact ⟨fun _ => rfl, fun _ _ h => by cases h⟩
    · refine ⟨(fun h => by cases h), fun m'' ls h => ?_⟩
      simp only [Option.some.injEq, Prod.mk.injEq] at h
      obtain ⟨rfl, _⟩ := h
      exact ⟨_, rfl, rfl, rfl⟩
  | .figure _ _ _, h, _, _ => h.elim
  | .other items, h, m, give => by
    rw [NoFigure] at h
    rw [captions, embed, relabel]
    obtain ⟨h1, h2⟩ := relabels_embed x sep docId kind items h m give
    refine ⟨fun e => by rw [h1 e], fun m' ls e => ?_⟩
    obtain ⟨ds, e1, e2, e3⟩ := h2 m' ls e
    rw [e1]
    exact ⟨_, rfl, by rw [caps]; exact e2, by rw [figIds]; exact e3⟩

theorem relabels_embed (x : Ext) (sep docId : Str) (kind : List Str) : ∀ is, NoFigures is → ∀ m give,
    (addAll x sep docId m (entries x.hash kind give (allCaptions is)) = none → relabels x sep docId kind m give (embeds is) = none) ∧
    ∀ m' ls, addAll x sep docId m (entries x.hash kind give (allCaptions is)) = some (m', ls) →
      ∃ ds, relabels x sep docId kind m give (embeds is) = some (m', left give (allCaptions is), ds) ∧
        allCaps ds = capsOf x.hash kind give (allCaptions is) ∧ allFigIds ds = []
  | [], _, m, give => by
    simp only [allCaptions, entries, ids, List.map_nil, addAll, embeds, relabels]
    refine ⟨(fun h => by cases h), fun m'' ls h => ?_⟩
    simp only [Option.some.injEq, Prod.mk.injEq] at h
    obtain ⟨rfl, _⟩ := h
    exact ⟨[], rfl, rfl, rfl⟩
  | i :: is, h, m, give => by
    rw [NoFigures] at h
    obtain ⟨a1, a2⟩ := relabel_embed x sep docId kind i h.1 m give
    rw [allCaptions, entries_append, addAll_append, embeds, relabels]
    cases ha : addAll x sep docId m (entries x.hash kind give (captions i)) with
    | none =>
      rw [a1 ha]
      exact ⟨fun _ => rfl, fun _ _ e => by cases e⟩
    | some r =>
      obtain ⟨m1, l1⟩ := r
      obtain ⟨d, e1, e2, e3⟩ := a2 m1 l1 ha
      obtain ⟨b1, b2⟩ := relabels_embed x sep docId kind is h.2 m1 (left give (captions i))
      simp only [e1]
      cases hb : addAll x sep docId m1 (entries x.hash kind (left give (captions i)) (allCaptions is)) with
      | none =>
        rw [b1 hb]
        exact ⟨fun _ => rfl, fun _ _ e => by cases e⟩
      | some r =>
        obtain ⟨m2, l2⟩ := r
        obtain ⟨ds, f1, f2, f3⟩ := b2 m2 l2 hb
        rw [f1]
        refine ⟨(fun e => by cases e), fun m' ls e => ?_⟩
        simp only [Option.some.injEq, Prod.mk.injEq] at e
        obtain ⟨rfl, _⟩ := e
        refine ⟨d :: ds, by rw [left_append], ?_, ?_⟩
        · rw [allCaps, e2, f2, capsOf_append]
        · rw [allFigIds, e3, f3]; rfl
end

theorem labelKind_eq (table : Bool) : kindOf table = labelKind table := by cases table <;> rfl

/-- The labels of wanted captions. -/
def pick (ws : List (Option (List Str × Str) × Source)) : List (List Str × Str × Source) :=
  ws.filterMap fun p => p.1.map fun k => (k.1, k.2, p.2)

/-- The captions that are wanted. -/
def capOf (w : Option (List Str × Str) × Source) : Cap :=
  match w.1 with
  | none => ⟨w.2, none, none⟩
  | some (k, i) => ⟨{ w.2 with id := some i }, some i, some k⟩

theorem wanted_figure (hash : Str → Str) (table : Bool) (id : Option Str) (items : List Item) :
    wanted hash (.figure table id items) = (ids hash id (allCaptions items)).map fun p => (some (labelKind table, p.1), p.2) := by
  rw [wanted, ← ids_zip, List.zip_map_left]
  rfl

theorem pick_figure (hash : Str → Str) (table : Bool) (id : Option Str) (items : List Item) :
    pick (wanted hash (.figure table id items)) = entries hash (kindOf table) id (allCaptions items) := by
  rw [wanted_figure, pick, entries, List.filterMap_map, labelKind_eq]
  exact congrFun (List.filterMap_eq_map) _

theorem capOf_figure (hash : Str → Str) (table : Bool) (id : Option Str) (items : List Item) :
    (wanted hash (.figure table id items)).map capOf = capsOf hash (kindOf table) id (allCaptions items) := by
  rw [wanted_figure, List.map_map, capsOf, labelKind_eq]
  rfl

mutual
theorem make_flat (x : Ext) (sep docId : Str) : ∀ i, Flat i → ∀ m,
    (addAll x sep docId m (pick (wanted x.hash i)) = none → make x sep docId m i = none) ∧
    ∀ m' ls, addAll x sep docId m (pick (wanted x.hash i)) = some (m', ls) →
      ∃ d, make x sep docId m i = some (m', d) ∧ caps d = (wanted x.hash i).map capOf ∧ figIds d = kept i
  | .caption t, _, m => by
    rw [wanted]
    refine ⟨(fun h => by cases h), fun m' ls h => ?_⟩
    simp only [pick, List.filterMap_cons, Option.map_none, List.filterMap_nil, addAll, Option.some.injEq, Prod.mk.injEq] at h
    obtain ⟨rfl, _⟩ := h
    exact ⟨_, rfl, rfl, rfl⟩
  | .figure table id items, h, m => by
    rw [Flat] at h
    rw [pick_figure, capOf_figure, make, makes_plain x sep docId m items h]
    obtain ⟨h1, h2⟩ := relabels_embed x sep docId (kindOf table) items h m id
    refine ⟨fun e => by simp only [h1 e], fun m' ls e => ?_⟩
    obtain ⟨ds, e1, e2, e3⟩ := h2 m' ls e
    simp only [e1]
    exact ⟨_, rfl, by rw [caps]; exact e2, by rw [figIds, e3, kept]; rfl⟩
  | .other items, h, m => by
    rw [Flat] at h
    rw [wanted, make]
    obtain ⟨h1, h2⟩ := makes_flat x sep docId items h m
    refine ⟨fun e => by simp only [h1 e], fun m' ls e => ?_⟩
    obtain ⟨ds, e1, e2, e3⟩ := h2 m' ls e
    simp only [e1]
    exact ⟨_, rfl, by rw [caps]; exact e2, by rw [figIds, e3, kept]⟩

theorem makes_flat (x : Ext) (sep docId : Str) : ∀ is, Flats is → ∀ m,
    (addAll x sep docId m (pick (allWanted x.hash is)) = none → makes x sep docId m is = none) ∧
    ∀ m' ls, addAll x sep docId m (pick (allWanted x.hash is)) = some (m', ls) →
      ∃ ds, makes x sep docId m is = some (m', ds) ∧ allCaps ds = (allWanted x.hash is).map capOf ∧ allFigIds ds = allKept is
  | [], _, m => by
    rw [allWanted]
    refine ⟨(fun h => by cases h), fun m' ls h => ?_⟩
    simp only [pick, List.filterMap_nil, addAll, Option.some.injEq, Prod.mk.injEq] at h
    obtain ⟨rfl, _⟩ := h
    exact ⟨[], rfl, rfl, rfl⟩
  | i :: is, h, m => by
    rw [Flats] at h
    obtain ⟨a1, a2⟩ := make_flat x sep docId i h.1 m
    have hp : pick (wanted x.hash i ++ allWanted x.hash is) = pick (wanted x.hash i) ++ pick (allWanted x.hash is) := by
      simp only [pick, List.filterMap_append]
    rw [allWanted, hp, addAll_append, makes]
    cases ha : addAll x sep docId m (pick (wanted x.hash i)) with
    | none =>
      rw [a1 ha]
      exact ⟨fun _ => rfl, fun _ _ e => by cases e⟩
    | some r =>
      obtain ⟨m1, l1⟩ := r
      obtain ⟨d, e1, e2, e3⟩ := a2 m1 l1 ha
      obtain ⟨b1, b2⟩ := makes_flat x sep docId is h.2 m1
      simp only [e1]
      cases hb : addAll x sep docId m1 (pick (allWanted x.hash is)) with
      | none =>
        rw [b1 hb]
        exact ⟨fun _ => rfl, fun _ _ e => by cases e⟩
      | some r =>
        obtain ⟨m2, l2⟩ := r
        obtain ⟨ds, f1, f2, f3⟩ := b2 m2 l2 hb
        rw [f1]
        refine ⟨(fun e => by cases e), fun m' ls e => ?_⟩
        simp only [Option.some.injEq, Prod.mk.injEq] at e
        obtain ⟨rfl, _⟩ := e
        refine ⟨d :: ds, rfl, ?_, ?_⟩
        · rw [allCaps, e2, f2, List.map_append]
        · rw [allFigIds, e3, f3, allKept]
end

/-- Labels are added exactly if their identifiers are new. -/
theorem addAll_iff (x : Ext) (sep docId : Str) (hs : sep ≠ []) (ws : List (List Str × Str × Source))
    (hid : ∀ w ∈ ws, ¬ sep <:+: w.2.1) : ∀ m, Reachable sep m →
    (∀ m' ls, addAll x sep docId m ws = some (m', ls) → Reachable sep m' ∧ m'.values = m.values ++ ls ∧
      List.Forall₂ (IsLabel docId) ws ls ∧ (ws.map (·.2.1)).Nodup ∧
      ∀ w ∈ ws, ∀ l ∈ m.values, l.docId = docId → l.id ≠ w.2.1) ∧
    (addAll x sep docId m ws = none → ¬ ((ws.map (·.2.1)).Nodup ∧ ∀ w ∈ ws, ∀ l ∈ m.values, l.docId = docId → l.id ≠ w.2.1)) := by
  induction ws with
  | nil =>
    intro m hm
    refine ⟨fun m' ls h => ?_, (fun h => by cases h)⟩
    simp only [addAll, Option.some.injEq, Prod.mk.injEq] at h
    obtain ⟨rfl, rfl⟩ := h
    exact ⟨hm, by simp, .nil, by simp, by simp⟩
  | cons w ws ih =>
    intro m hm
    obtain ⟨k, i, t⟩ := w
    have hid0 : ¬ sep <:+: i := hid _ (List.mem_cons_self ..)
    have hp : parseId sep i = (none, i) := by
      unfold parseId
      rw [split_of_not_infix sep _ hs hid0]
    obtain ⟨a1, a2⟩ := C10_add sep m hm i (some k) docId true (t.short.getD (x.condense t.text))
    simp only [hp, Option.getD_none] at a1 a2
    have hm1 : Reachable sep (m.addLabel sep i (some k) docId true (t.short.getD (x.condense t.text))).1 :=
      hm.step (.add i (some k) docId true (t.short.getD (x.condense t.text)))
    simp only [addAll, createLabel]
    rcases hc : m.addLabel sep i (some k) docId true (t.short.getD (x.condense t.text)) with ⟨m1, _ | l⟩
    · refine ⟨(fun _ _ h => by cases h), fun _ => ?_⟩
      rintro ⟨_, h2⟩
      have hno : ¬ ∃ l ∈ m.values, l.docId = docId ∧ l.id = i := by
        rintro ⟨l, hl, e1, e2⟩
        exact h2 _ (List.mem_cons_self ..) l hl e1 e2
      obtain ⟨l, e, _⟩ := a2 hno
      rw [hc] at e
      cases e
    · rw [hc] at hm1 a1 a2
      have hno : ¬ ∃ l ∈ m.values, l.docId = docId ∧ l.id = i := fun hex => by
        have := (a1 hex).1
        cases this
      obtain ⟨l', b1, b2, b3, b4, b5, b6⟩ := a2 hno
      simp only [Option.some.injEq] at b1
      subst b1
      obtain ⟨i1, i2⟩ := ih (fun w hw => hid w (List.mem_cons_of_mem _ hw)) m1 hm1
      have hlab : IsLabel docId (k, i, t) l := by
        refine ⟨b2, b4, b3, fun s hsh => by rw [b5]; simp only [] at hsh; rw [hsh]; rfl, fun hsh => ?_⟩
        simp only [] at hsh
        rw [b5, hsh, Option.getD_none, ← C55_title x.title]
        rfl
      constructor
      · intro m' ls h
        simp only [] at h
        cases hr : addAll x sep docId m1 ws with
        | none => rw [hr] at h; cases h
        | some r =>
          obtain ⟨m2, ls2⟩ := r
          rw [hr] at h
          simp only [Option.some.injEq, Prod.mk.injEq] at h
          obtain ⟨rfl, rfl⟩ := h
          obtain ⟨c1, c2, c3, c4, c5⟩ := i1 m2 ls2 hr
          refine ⟨c1, by rw [c2, b6]; simp, .cons hlab c3, ?_, ?_⟩
          · rw [List.map_cons, List.nodup_cons]
            refine ⟨fun hmem => ?_, c4⟩
            obtain ⟨w, hw, e⟩ := List.mem_map.mp hmem
            exact c5 w hw l (by rw [b6]; simp) b2 (by rw [b3]; exact e.symm)
          · intro w hw l0 hl0 hd
            rcases List.mem_cons.mp hw with rfl | hw
            · exact fun e => hno ⟨l0, hl0, hd, e⟩
            · exact c5 w hw l0 (by rw [b6]; simp [hl0]) hd
      · intro h
        simp only [] at h
        cases hr : addAll x sep docId m1 ws with
        | some r => rw [hr] at h; cases h
        | none =>
          rintro ⟨n1, n2⟩
          rw [List.map_cons, List.nodup_cons] at n1
          refine i2 hr ⟨n1.2, fun w hw l0 hl0 hd => ?_⟩
          rw [b6, List.mem_append, List.mem_singleton] at hl0
          rcases hl0 with hl0 | rfl
          · exact n2 w (List.mem_cons_of_mem _ hw) l0 hl0 hd
          · rw [b3]
            exact fun e => n1.1 (List.mem_map.mpr ⟨w, hw, e.symm⟩)

end Verif.Figures
