import Verif.Spec.RefDeps
import Verif.Props.Labels

/-!
# C89: the order of labels, and the labels a page depends on
-/

namespace Verif.RefDeps

open Verif Verif.Labels

/-! ### The order -/

theorem strLt_iff (s t : Str) : strLt s t = true ↔ Before s t := by
  induction s generalizing t with
  | nil =>
    cases t with
    | nil => exact ⟨(fun h => by cases h), (fun h => by cases h)⟩
    | cons b t => exact ⟨fun _ => .ends b t, fun _ => rfl⟩
  | cons a s ih =>
    cases t with
    | nil => exact ⟨(fun h => by cases h), (fun h => by cases h)⟩
    | cons b t =>
      unfold strLt
      by_cases hab : a = b
      · subst hab
        rw [if_pos rfl, ih]
        refine ⟨fun h => .later a h, fun h => ?_⟩
        cases h with
        | here _ _ _ _ h => exact absurd h (Nat.lt_irrefl _)
        | later _ h => exact h
      · rw [if_neg hab, decide_eq_true_eq]
        refine ⟨fun h => .here a b s t h, fun h => ?_⟩
        cases h with
        | here _ _ _ _ h => exact h
        | later _ h => exact absurd rfl hab

theorem Before.irrefl {s : Str} : ¬ Before s s := by
  induction s with
  | nil => intro h; cases h
  | cons a s ih =>
    intro h
    cases h with
    | here _ _ _ _ h => exact Nat.lt_irrefl _ h
    | later _ h => exact ih h

theorem Before.trans {s t u : Str} (h : Before s t) (h' : Before t u) : Before s u := by
  induction h generalizing u with
  | ends b t => cases h' <;> exact .ends _ _
  | here a b s t h =>
    cases h' with
    | here _ c _ _ h2 => exact .here _ _ _ _ (Nat.lt_trans h h2)
    | later _ h2 => exact .here _ _ _ _ h
  | later a _ ih =>
    cases h' with
    | here _ c _ _ h2 => exact .here _ _ _ _ h2
    | later _ h2 => exact .later _ (ih h2)

theorem Before.total (s t : Str) : Before s t ∨ s = t ∨ Before t s := by
  induction s generalizing t with
  | nil => cases t with
    | nil => exact .inr (.inl rfl)
    | cons b t => exact .inl (.ends b t)
  | cons a s ih =>
    cases t with
    | nil => exact .inr (.inr (.ends a s))
    | cons b t =>
      rcases Nat.lt_trichotomy a.toNat b.toNat with h | h | h
      · exact .inl (.here _ _ _ _ h)
      · obtain rfl : a = b := Char.ext (UInt32.toNat_inj.1 h)
        rcases ih t with h | h | h
        · exact .inl (.later a h)
        · exact .inr (.inl (by rw [h]))
        · exact .inr (.inr (.later a h))
      · exact .inr (.inr (.here _ _ _ _ h))

theorem lt_iff (a b : Label) : lt a b = true ↔ LabelBefore a b := by
  unfold lt pairLt LabelBefore
  simp only
  by_cases h : a.docId = b.docId
  · rw [if_pos h]
    by_cases h2 : a.id = b.id
    · rw [if_pos h2]
      refine ⟨(fun h => by cases h), ?_⟩
      rintro (h3 | ⟨-, h3⟩)
      · rw [h] at h3; exact absurd h3 Before.irrefl
      · rw [h2] at h3; exact absurd h3 Before.irrefl
    · rw [if_neg h2, strLt_iff]
      refine ⟨fun h3 => .inr ⟨h, h3⟩, ?_⟩
      rintro (h3 | ⟨-, h3⟩)
      · rw [h] at h3; exact absurd h3 Before.irrefl
      · exact h3
  · rw [if_neg h, strLt_iff]
    refine ⟨.inl, ?_⟩
    rintro (h3 | ⟨h3, -⟩)
    · exact h3
    · exact absurd h3 h

theorem before_irrefl (a b : Label) (h : Same a b) : ¬ LabelBefore a b := by
  rintro (h3 | ⟨-, h3⟩)
  · rw [h.1] at h3; exact Before.irrefl h3
  · rw [h.2] at h3; exact Before.irrefl h3

/-- C89. The comparisons of labels go by document, then by identifier, and agree with each other: `<`, `<=`, `>`, `>=`, `==` and
`!=`. -/
theorem C89_comparisons (a b : Label) :
    (lt a b = true ↔ LabelBefore a b) ∧ (gt a b = true ↔ LabelBefore b a) ∧
    (le a b = true ↔ LabelBefore a b ∨ Same a b) ∧ (ge a b = true ↔ LabelBefore b a ∨ Same a b) ∧
    (eq a b = true ↔ Same a b) ∧ (ne a b = true ↔ ¬ Same a b) := by
  have hp : ((a.docId, a.id) = (b.docId, b.id)) ↔ Same a b := Prod.mk.injEq _ _ _ _ ▸ Iff.rfl
  refine ⟨lt_iff a b, lt_iff b a, ?_, ?_, ?_, ?_⟩
  · unfold le
    by_cases h : Same a b
    · rw [if_pos (hp.2 h)]; simp [h]
    · rw [if_neg (fun e => h (hp.1 e))]
      exact (lt_iff a b).trans ⟨.inl, fun h2 => h2.resolve_right h⟩
  · unfold ge
    by_cases h : Same a b
    · rw [if_pos (hp.2 h)]; simp [h]
    · rw [if_neg (fun e => h (hp.1 e))]
      exact (lt_iff b a).trans ⟨.inl, fun h2 => h2.resolve_right h⟩
  · unfold eq; rw [decide_eq_true_eq]; exact hp
  · unfold ne; rw [decide_eq_true_eq]; exact not_congr hp

theorem before_trans {a b c : Label} (h : LabelBefore a b) (h' : LabelBefore b c) : LabelBefore a c := by
  rcases h with h | ⟨h1, h2⟩
  · rcases h' with h' | ⟨h3, h4⟩
    · exact .inl (h.trans h')
    · exact .inl (h3 ▸ h)
  · rcases h' with h' | ⟨h3, h4⟩
    · exact .inl (h1 ▸ h')
    · exact .inr ⟨h1.trans h3, h2.trans h4⟩

/-- C89. The order of labels is a strict total order: of two labels with different documents or identifiers exactly one comes first,
and the order is transitive. -/
theorem C89_total (a b c : Label) :
    (LabelBefore a b ∨ Same a b ∨ LabelBefore b a) ∧ ¬ (LabelBefore a b ∧ LabelBefore b a) ∧ ¬ (LabelBefore a b ∧ Same a b) ∧
    (LabelBefore a b → LabelBefore b c → LabelBefore a c) := by
  refine ⟨?_, fun h => before_irrefl a a ⟨rfl, rfl⟩ (before_trans h.1 h.2), fun h => before_irrefl a b h.2 h.1, before_trans⟩
  rcases Before.total a.docId b.docId with h | h | h
  · exact .inl (.inl h)
  · rcases Before.total a.id b.id with h2 | h2 | h2
    · exact .inl (.inr ⟨h, h2⟩)
    · exact .inr (.inl ⟨h, h2⟩)
    · exact .inr (.inr (.inr ⟨h.symm, h2⟩))
  · exact .inr (.inr (.inl h))

/-! ### Sorting -/

theorem perm_insert (a : Label) (l : List Label) : (insertSorted a l).Perm (a :: l) := by
  induction l with
  | nil => exact .refl _
  | cons b l ih =>
    unfold insertSorted
    by_cases h : lt b a = true
    · rw [if_pos h]; exact (ih.cons b).trans (.swap a b l)
    · rw [if_neg h]

theorem perm_sorted (l : List Label) : (sorted l).Perm l := by
  induction l with
  | nil => exact .refl _
  | cons a l ih => exact (perm_insert a (sorted l)).trans (ih.cons a)

theorem inOrder_insert (a : Label) (l : List Label) (h : InOrder l) : InOrder (insertSorted a l) := by
  induction l with
  | nil => exact List.pairwise_singleton _ _
  | cons b l ih =>
    unfold InOrder at h ih ⊢
    rw [List.pairwise_cons] at h
    unfold insertSorted
    by_cases hb : lt b a = true
    · rw [if_pos hb, List.pairwise_cons]
      refine ⟨fun x hx => ?_, ih h.2⟩
      rcases List.mem_cons.1 ((perm_insert a l).mem_iff.1 hx) with rfl | hx
      · exact fun hc => (C89_total b x b).2.1 ⟨(lt_iff b x).1 hb, hc⟩
      · exact h.1 x hx
    · rw [if_neg hb, List.pairwise_cons, List.pairwise_cons]
      have hab : ¬ LabelBefore b a := fun hc => hb ((lt_iff b a).2 hc)
      refine ⟨fun x hx => ?_, h⟩
      rcases List.mem_cons.1 hx with rfl | hx
      · exact hab
      · intro hc
        rcases (C89_total a b a).1 with h1 | h1 | h1
        · exact h.1 x hx (before_trans hc h1)
        · refine h.1 x hx ?_
          unfold LabelBefore at hc ⊢
          rw [← h1.1, ← h1.2]; exact hc
        · exact hab h1

theorem inOrder_sorted (l : List Label) : InOrder (sorted l) := by
  induction l with
  | nil => exact List.Pairwise.nil
  | cons a l ih => exact inOrder_insert a _ ih

/-! ### The labels of a page -/

theorem mapM_perm {α β : Type} (f : α → Option β) {l l' : List α} (h : l.Perm l') (r : List β) (hr : l.mapM f = some r) :
    ∃ r', l'.mapM f = some r' ∧ r.Perm r' := by
  induction h generalizing r with
  | nil => exact ⟨r, hr, .refl _⟩
  | cons a _ ih =>
    rw [List.mapM_cons] at hr
    cases ha : f a with
    | none => rw [ha] at hr; cases hr
    | some b =>
      rename_i l1 l2 _
      cases hl : l1.mapM f with
      | none => rw [ha, hl] at hr; cases hr
      | some s =>
        rw [ha, hl] at hr
        cases hr
        obtain ⟨s', h1, h2⟩ := ih s hl
        exact ⟨b :: s', by rw [List.mapM_cons, ha, h1]; rfl, h2.cons b⟩
  | swap a b l =>
    rw [List.mapM_cons, List.mapM_cons] at hr
    cases ha : f a with
    | none => cases hb : f b <;> · rw [ha, hb] at hr; cases hr
    | some x =>
      cases hb : f b with
      | none => rw [ha, hb] at hr; cases hr
      | some y =>
        cases hl : l.mapM f with
        | none => rw [ha, hb, hl] at hr; cases hr
        | some s =>
          rw [ha, hb, hl] at hr
          cases hr
          exact ⟨x :: y :: s, by rw [List.mapM_cons, List.mapM_cons, ha, hb, hl]; rfl, .swap _ _ _⟩
  | trans _ _ ih1 ih2 =>
    obtain ⟨r1, h1, h2⟩ := ih1 r hr
    obtain ⟨r2, h3, h4⟩ := ih2 r1 h1
    exact ⟨r2, h3, h2.trans h4⟩

theorem mapM_mem {α β : Type} (f : α → Option β) (l : List α) :
    (∀ r, l.mapM f = some r → (∀ b, b ∈ r ↔ ∃ a ∈ l, f a = some b) ∧ ∀ a ∈ l, ∃ b, f a = some b) ∧
    (l.mapM f = none → ∃ a ∈ l, f a = none) := by
  induction l with
  | nil =>
    refine ⟨fun r hr => ?_, (fun h => by cases h)⟩
    cases hr
    simp
  | cons a l ih =>
    refine ⟨fun r hr => ?_, fun hr => ?_⟩
    · rw [List.mapM_cons] at hr
      cases ha : f a with
      | none => rw [ha] at hr; cases hr
      | some b =>
        cases hl : l.mapM f with
        | none => rw [ha, hl] at hr; cases hr
        | some s =>
          rw [ha, hl] at hr
          cases hr
          obtain ⟨h1, h2⟩ := ih.1 s hl
          refine ⟨fun x => ?_, fun x hx => ?_⟩
          · rw [List.mem_cons, h1]
            constructor
            · rintro (rfl | ⟨y, hy, hf⟩)
              · exact ⟨a, by simp, ha⟩
              · exact ⟨y, List.mem_cons_of_mem _ hy, hf⟩
            · rintro ⟨y, hy, hf⟩
              rcases List.mem_cons.1 hy with rfl | hy
              · rw [ha] at hf; cases hf; exact .inl rfl
              · exact .inr ⟨y, hy, hf⟩
          · rcases List.mem_cons.1 hx with rfl | hx
            · exact ⟨b, ha⟩
            · exact h2 x hx
    · rw [List.mapM_cons] at hr
      cases ha : f a with
      | none => exact ⟨a, by simp, ha⟩
      | some b =>
        cases hl : l.mapM f with
        | none => obtain ⟨x, hx, hf⟩ := ih.2 hl; exact ⟨x, List.mem_cons_of_mem _ hx, hf⟩
        | some s => rw [ha, hl] at hr; cases hr

theorem mem_refIds (e : Entries) (id : Str) : id ∈ refIds e ↔ Referenced e id := by
  unfold refIds Referenced
  rw [List.mem_flatMap]
  constructor
  · rintro ⟨⟨k, v⟩, hkv, hid⟩
    cases v with
    | none => simp at hid
    | some tags =>
      simp only [List.mem_filterMap] at hid
      obtain ⟨f, hf, hi⟩ := hid
      cases f with
      | ref i => simp only at hi; subst hi; exact ⟨k, tags, hkv, hf⟩
      | other => simp at hi
  · rintro ⟨k, tags, hkv, hf⟩
    exact ⟨_, hkv, by simp only [List.mem_filterMap]; exact ⟨_, hf, rfl⟩⟩

/-- C89. The identifiers collected from the tags are those of the references in the tags of the context. -/
theorem C89_ids (e : Entries) (ids : List Str) :
    (ids.Nodup ∧ ∀ id, id ∈ ids ↔ id ∈ refIds e) ↔ OrderOf e ids := by
  constructor
  · rintro ⟨h1, h2⟩; exact ⟨h1, fun id => (h2 id).trans (mem_refIds e id)⟩
  · rintro ⟨h1, h2⟩; exact ⟨h1, fun id => (h2 id).trans (mem_refIds e id).symm⟩

theorem register_again (m : Manager) (env : Env) : (m.register env).register env = m.register env := by
  unfold Manager.register
  by_cases h : m.registered
  · rw [if_pos h, if_pos h]
  · rw [if_neg h]; rfl

theorem getLabel_register (m : Manager) (env : Env) (sep id : Str) :
    ((m.register env).getLabel env sep id).2 = (m.getLabel env sep id).2 := by
  unfold Manager.getLabel
  simp only [register_again]

theorem byId_eq (m : Manager) (env : Env) (sep : Str) (ids : List Str) :
    (m.getLabelsById env sep ids).2 = ids.mapM fun id => (m.getLabel env sep id).2 := by
  simp only [Manager.getLabelsById, getLabel_register]

theorem found_unique (sep : Str) (m : Manager) (h : Reachable sep m) (env : Env) (id id' : Str) (l l' : Label)
    (hl : (m.getLabel env sep id).2 = some l) (hl' : (m.getLabel env sep id').2 = some l') (hs : Same l l') : l = l' := by
  have hi := h.inv.register env
  have hmem : ∀ id l, (m.getLabel env sep id).2 = some l → ∃ k, (k, l) ∈ (m.register env).labels := by
    intro id l hl
    unfold Manager.getLabel at hl
    rcases hp : parseId sep id with ⟨d, lid⟩
    rw [hp] at hl
    cases d with
    | some d => exact ⟨_, Dict.mem_of_get? _ _ _ hl⟩
    | none =>
      simp only [Option.map_eq_some_iff] at hl
      obtain ⟨⟨k, x⟩, h1, h2⟩ := hl
      simp only at h2
      subst h2
      exact ⟨k, List.mem_of_find?_eq_some h1⟩
  obtain ⟨k, hk⟩ := hmem id l hl
  obtain ⟨k', hk'⟩ := hmem id' l' hl'
  have e1 := hi.key _ _ hk
  have e2 := hi.key _ _ hk'
  rw [hs.1, hs.2, ← e2] at e1
  subst e1
  have g1 := Dict.get?_of_mem _ hi.nodup _ _ hk
  have g2 := Dict.get?_of_mem _ hi.nodup _ _ hk'
  rw [g1] at g2
  exact Option.some.inj g2

/-- C89. The labels a page depends on are those its references name, in the order of labels. -/
theorem C89_labels (m : Manager) (env : Env) (sep : Str) (e : Entries) (ids : List Str) (ho : OrderOf e ids) (ls : List Label)
    (hls : addRefLabels (some m) env sep ids = some ls) :
    InOrder ls ∧ ∀ l, l ∈ ls ↔ ∃ id, Referenced e id ∧ (m.getLabel env sep id).2 = some l := by
  unfold addRefLabels at hls
  simp only at hls
  by_cases h0 : ids = []
  · rw [if_pos h0] at hls
    cases hls
    refine ⟨List.Pairwise.nil, fun l => ⟨fun h => by simp at h, ?_⟩⟩
    rintro ⟨id, hr, -⟩
    have := (ho.all id).2 hr
    rw [h0] at this
    simp at this
  · rw [if_neg h0, byId_eq] at hls
    cases hm : ids.mapM fun id => (m.getLabel env sep id).2 with
    | none => rw [hm] at hls; cases hls
    | some r =>
      rw [hm] at hls
      cases hls
      refine ⟨inOrder_sorted r, fun l => ?_⟩
      rw [(perm_sorted r).mem_iff, ((mapM_mem _ ids).1 r hm).1]
      simp only [ho.all]

/-- C89. The labels a page depends on do not depend on the order in which Python iterates over the set of identifiers: they are the
same list for all orders, or the label of a reference is missing for all orders. -/
theorem C89_order (sep : Str) (m : Manager) (h : Reachable sep m) (env : Env) (e : Entries) (ids ids' : List Str)
    (ho : OrderOf e ids) (ho' : OrderOf e ids') :
    addRefLabels (some m) env sep ids = addRefLabels (some m) env sep ids' := by
  have hp : ids.Perm ids' := (List.perm_ext_iff_of_nodup ho.once ho'.once).2 fun id => (ho.all id).trans (ho'.all id).symm
  unfold addRefLabels
  simp only
  by_cases h0 : ids = []
  · have h0' : ids' = [] := by subst h0; exact hp.nil_eq.symm
    rw [if_pos h0, if_pos h0']
  · have h0' : ids' ≠ [] := fun hc => h0 (by subst hc; exact hp.eq_nil)
    rw [if_neg h0, if_neg h0', byId_eq, byId_eq]
    cases hm : ids.mapM fun id => (m.getLabel env sep id).2 with
    | none =>
      cases hm' : ids'.mapM fun id => (m.getLabel env sep id).2 with
      | none => rfl
      | some r' =>
        obtain ⟨r, h1, -⟩ := mapM_perm _ hp.symm r' hm'
        rw [hm] at h1; cases h1
    | some r =>
      obtain ⟨r', h1, h2⟩ := mapM_perm _ hp r hm
      rw [h1]
      simp only [Option.some.injEq]
      refine List.Perm.eq_of_pairwise (le := fun a b => ¬ LabelBefore b a) ?_ (inOrder_sorted r) (inOrder_sorted r')
        (((perm_sorted r).trans h2).trans (perm_sorted r').symm)
      intro a b ha hb hab hba
      rw [(perm_sorted r).mem_iff, ((mapM_mem _ ids).1 r hm).1] at ha
      rw [(perm_sorted r').mem_iff, ((mapM_mem _ ids').1 r' h1).1] at hb
      obtain ⟨i, -, hi⟩ := ha
      obtain ⟨j, -, hj⟩ := hb
      refine found_unique sep m h env i j a b hi hj ?_
      rcases (C89_total a b a).1 with h3 | h3 | h3
      · exact absurd h3 hba
      · exact h3
      · exact absurd h3 hab

/-- C89. A page whose references include one without a label cannot be built; without references or without a label manager it
depends on no labels. -/
theorem C89_missing (m : Manager) (env : Env) (sep : Str) (e : Entries) (ids : List Str) (ho : OrderOf e ids) :
    (addRefLabels (some m) env sep ids = none ↔ ∃ id, Referenced e id ∧ (m.getLabel env sep id).2 = none) ∧
    addRefLabels none env sep ids = some [] := by
  refine ⟨?_, rfl⟩
  unfold addRefLabels
  simp only
  by_cases h0 : ids = []
  · rw [if_pos h0]
    refine ⟨(fun h => by cases h), ?_⟩
    rintro ⟨id, hr, -⟩
    have := (ho.all id).2 hr
    rw [h0] at this
    simp at this
  · rw [if_neg h0, byId_eq]
    cases hm : ids.mapM fun id => (m.getLabel env sep id).2 with
    | none =>
      obtain ⟨id, h1, h2⟩ := (mapM_mem _ ids).2 hm
      exact ⟨fun _ => ⟨id, (ho.all id).1 h1, h2⟩, fun _ => rfl⟩
    | some r =>
      refine ⟨(fun h => by cases h), ?_⟩
      rintro ⟨id, hr, hn⟩
      obtain ⟨b, hb⟩ := ((mapM_mem _ ids).1 r hm).2 id ((ho.all id).2 hr)
      rw [hn] at hb; cases hb

/-! ### Hashes -/

/-- C89. Equal labels of the same class have the same hash, and so are found in sets. Missing: labels of different classes, see
`C89_hash_refuted`. -/
theorem C89_hash_partial (h : Str × Str × Str → Nat) (a b : Label) (hs : Same a b) (hc : a.content = b.content) :
    hash h a = hash h b ∧ ∀ s, b ∈ s → inSet h a s = true := by
  have e : hash h a = hash h b := by unfold hash className; rw [hs.1, hs.2, hc]
  refine ⟨e, fun s hb => ?_⟩
  unfold inSet
  rw [List.any_eq_true]
  exact ⟨b, hb, by simp [e, (C89_comparisons b a).2.2.2.2.1, Same, hs.1, hs.2]⟩

def docLabel : Label := ⟨0, "a.dm".toList, "a.dm".toList, none, false, [], none, fun _ => none⟩
def secLabel : Label := ⟨1, "a.dm".toList, "a.dm".toList, some ["heading".toList], true, [], none, fun _ => none⟩

/-- C89. The label of a document and that of a heading with the same identifier are equal but have different hashes, for every hash that
tells the two apart: the one is not found in a set with the other. -/
theorem C89_hash_refuted (h : Str × Str × Str → Nat)
    (hh : h ("ContentLabel".toList, "a.dm".toList, "a.dm".toList) ≠ h ("DocumentLabel".toList, "a.dm".toList, "a.dm".toList)) :
    eq docLabel secLabel = true ∧ hash h docLabel ≠ hash h secLabel ∧ inSet h docLabel [secLabel] = false := by
  refine ⟨by decide, fun e => hh e.symm, ?_⟩
  have : hash h secLabel ≠ hash h docLabel := hh
  simp [inSet, this]

/-! ### Cases -/

def sepEx : Str := "::".toList

def mEx : Manager := (Manager.init.run sepEx
  [.add "sec".toList (some ["heading".toList]) "b.dm".toList true "S".toList, .add "fig".toList (some ["figure".toList]) "b.dm".toList true "F".toList,
   .add "a.dm".toList none "a.dm".toList false "A".toList])

def eEx : Entries := [("body".toList, some [.other, .ref (some "sec".toList), .ref none, .ref (some "a.dm".toList), .ref (some "sec".toList)]),
  ("title".toList, none), ("toc".toList, some [.ref (some "b.dm::fig".toList)])]

example : (addRefLabels (some mEx) ⟨none, []⟩ sepEx ["sec".toList, "b.dm::fig".toList, "a.dm".toList]).map (·.map fun l => (l.docId, l.id)) =
    some [("a.dm".toList, "a.dm".toList), ("b.dm".toList, "fig".toList), ("b.dm".toList, "sec".toList)] := by decide +kernel

example : addRefLabels (some mEx) ⟨none, []⟩ sepEx ["sec".toList, "nothing".toList] |>.isNone := by decide +kernel

theorem orderEx : OrderOf eEx ["sec".toList, "b.dm::fig".toList, "a.dm".toList] := by
  refine (C89_ids _ _).1 ⟨by decide, fun id => ?_⟩
  have : refIds eEx = ["sec".toList, "a.dm".toList, "sec".toList, "b.dm::fig".toList] := by decide +kernel
  rw [this]
  simp only [List.mem_cons, List.not_mem_nil, or_false]
  constructor
  · rintro (h | h | h) <;> simp [h]
  · rintro (h | h | h | h) <;> simp [h]

/-- The manager is reached, so that its labels are the same in another order. -/
example : addRefLabels (some mEx) ⟨none, []⟩ sepEx ["sec".toList, "b.dm::fig".toList, "a.dm".toList] =
    addRefLabels (some mEx) ⟨none, []⟩ sepEx ["a.dm".toList, "b.dm::fig".toList, "sec".toList] :=
  C89_order sepEx mEx ⟨_, rfl⟩ _ eEx _ _ orderEx ⟨by decide, fun id => by
    rw [← orderEx.all]
    simp only [List.mem_cons, List.not_mem_nil, or_false]
    constructor
    · rintro (h | h | h) <;> simp [h]
    · rintro (h | h | h) <;> simp [h]⟩

end Verif.RefDeps
