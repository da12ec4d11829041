import Verif.Spec.Navigation
import Verif.Lemmas.Dict
import Verif.Lemmas.Strings
import Verif.Props.Labels

/-!
# Lemmas on navigation links and tables of contents
-/

set_option linter.unusedSimpArgs false
set_option linter.unusedVariables false

namespace Verif.Navigation

open Verif Verif.Labels

/-! ## Documents by target -/

theorem addTargets_get? (id : Str) (ts : List Str) (d : Dict Str (List Str)) (hn : ts.Nodup) (t : Str) :
    (addTargets id ts d).get? t = if t ∈ ts then some ((d.get? t).getD [] ++ [id]) else d.get? t := by
  induction ts generalizing d with
  | nil => simp [addTargets]
  | cons a ts ih =>
    simp only [List.nodup_cons] at hn
    rw [addTargets, ih _ hn.2, Dict.get?_set]
    by_cases h : a = t
    · subst h
      simp [hn.1]
    · have h' : ¬ t = a := fun e => h e.symm
      simp [h, h']

theorem idsByTarget_fold (docs : List Doc) (hn : ∀ d ∈ docs, d.targets.Nodup) (d0 : Dict Str (List Str)) (t : Str) :
    (docs.foldl (fun d doc => addTargets doc.docId doc.targets d) d0).get? t =
      if rendered t docs = [] then d0.get? t else some ((d0.get? t).getD [] ++ (rendered t docs).map (·.docId)) := by
  induction docs generalizing d0 with
  | nil => simp [rendered]
  | cons x docs ih =>
    rw [List.foldl_cons, ih (fun d h => hn d (by simp [h])), addTargets_get? _ _ _ (hn x (by simp))]
    by_cases h : t ∈ x.targets
    · have : rendered t (x :: docs) = x :: rendered t docs := by simp [rendered, h]
      rw [this]
      simp only [h, if_true, reduceCtorEq, if_false, Option.getD_some, List.map_cons, List.append_assoc, List.singleton_append]
      split
      · rename_i h2; simp [h2]
      · rfl
    · have : rendered t (x :: docs) = rendered t docs := by simp [rendered, h]
      rw [this]
      simp only [h, if_false]

theorem idsByTarget_get? (docs : List Doc) (hn : ∀ d ∈ docs, d.targets.Nodup) (t : Str) :
    (idsByTarget docs).get? t = if rendered t docs = [] then none else some ((rendered t docs).map (·.docId)) := by
  unfold idsByTarget
  rw [idsByTarget_fold docs hn]
  simp

/-! ## First labels -/

theorem isFirst_cons (x : Label) (xs : List Label) (d : Str) (l : Label) :
    IsFirst (x :: xs) d l ↔ (x.docId = d ∧ l = x) ∨ (x.docId ≠ d ∧ IsFirst xs d l) := by
  constructor
  · rintro ⟨p, q, h, h1, h2⟩
    cases p with
    | nil =>
      simp only [List.nil_append, List.cons.injEq] at h
      left
      exact ⟨by rw [h.1]; exact h1, h.1.symm⟩
    | cons y p =>
      simp only [List.cons_append, List.cons.injEq] at h
      right
      refine ⟨by rw [h.1]; exact h2 y (by simp), p, q, h.2, h1, fun z hz => h2 z (by simp [hz])⟩
  · rintro (⟨h, rfl⟩ | ⟨h, p, q, h1, h2, h3⟩)
    · exact ⟨[], xs, rfl, h, by simp⟩
    · refine ⟨x :: p, q, by rw [h1]; rfl, h2, ?_⟩
      intro z hz
      rcases List.mem_cons.1 hz with rfl | hz
      · exact h
      · exact h3 z hz

theorem Grouped.tail {x : Label} {xs : List Label} (h : Grouped (x :: xs)) : Grouped xs := by
  intro p a q b r hx
  exact h (x :: p) a q b r (by rw [hx]; rfl)

/-- The labels continue a group. -/
def Continues (c : Str) (ls : List Label) : Prop := ∀ q b r, ls = q ++ b :: r → b.docId = c → ∀ x ∈ q, x.docId = c

theorem Grouped.continues {x : Label} {xs : List Label} (h : Grouped (x :: xs)) : Continues x.docId xs := by
  intro q b r hx hb y hy
  exact h [] x q b r (by rw [hx]; rfl) hb.symm y hy

theorem Continues.tail {c : Str} {x : Label} {xs : List Label} (h : Continues c (x :: xs)) : Continues c xs := by
  intro q b r hx hb y hy
  exact h (x :: q) b r (by rw [hx]; rfl) hb y (by simp [hy])

theorem mem_groupFirsts (ls : List Label) (cur : Option Str) (hg : Grouped ls) (hc : ∀ c, cur = some c → Continues c ls)
    (d : Str) (l : Label) : (d, l) ∈ groupFirsts cur ls ↔ cur ≠ some d ∧ IsFirst ls d l := by
  induction ls generalizing cur with
  | nil => simp [groupFirsts, IsFirst]
  | cons x xs ih =>
    rw [groupFirsts, isFirst_cons]
    by_cases h : cur = some x.docId
    · rw [if_pos h, ih cur hg.tail (fun c hcc => (hc c hcc).tail)]
      constructor
      · rintro ⟨h1, h2⟩
        exact ⟨h1, Or.inr ⟨fun e => h1 (by rw [h, e]), h2⟩⟩
      · rintro ⟨h1, h2 | h2⟩
        · exact absurd (by rw [h, h2.1]) h1
        · exact ⟨h1, h2.2⟩
    · rw [if_neg h, List.mem_cons, ih (some x.docId) hg.tail (by rintro c hcc; cases hcc; exact hg.continues)]
      constructor
      · rintro (h1 | ⟨h1, h2⟩)
        · simp only [Prod.mk.injEq] at h1
          rw [h1.1]
          exact ⟨h, Or.inl ⟨rfl, h1.2⟩⟩
        · refine ⟨?_, Or.inr ⟨fun e => h1 (by rw [e]), h2⟩⟩
          intro e
          obtain ⟨p, q, h3, h4, _⟩ := h2
          have := hc d e (x :: p) l q (by rw [h3]; rfl) h4 x (by simp)
          exact h (by rw [e, this])
      · rintro ⟨h1, h2 | h2⟩
        · exact Or.inl (by rw [h2.1, h2.2])
        · exact Or.inr ⟨fun e => h2.1 (by simpa using e), h2.2⟩

theorem groupFirsts_nodup (ls : List Label) (cur : Option Str) (hg : Grouped ls) (hc : ∀ c, cur = some c → Continues c ls) :
    ((groupFirsts cur ls).map Prod.fst).Nodup := by
  induction ls generalizing cur with
  | nil => simp [groupFirsts]
  | cons x xs ih =>
    rw [groupFirsts]
    by_cases h : cur = some x.docId
    · rw [if_pos h]
      exact ih cur hg.tail (fun c hcc => (hc c hcc).tail)
    · rw [if_neg h, List.map_cons, List.nodup_cons]
      have hcont : ∀ c, some x.docId = some c → Continues c xs := by
        rintro c hcc; cases hcc; exact hg.continues
      refine ⟨?_, ih (some x.docId) hg.tail hcont⟩
      intro hm
      obtain ⟨⟨d, l⟩, h1, h2⟩ := List.mem_map.1 hm
      simp only at h2
      subst h2
      exact ((mem_groupFirsts xs _ hg.tail hcont _ _).1 h1).1 rfl

theorem labelsByDoc_get? (ls : List Label) (hg : Grouped ls) (d : Str) (l : Label) :
    (labelsByDoc ls).get? d = some l ↔ IsFirst ls d l := by
  have hnd := groupFirsts_nodup ls none hg (by simp)
  have hup : labelsByDoc ls = groupFirsts none ls := by
    unfold labelsByDoc
    rw [Dict.update_append_new _ _ (by simpa using hnd)]
    rfl
  have hm := mem_groupFirsts ls none hg (by simp) d l
  simp only [ne_eq, reduceCtorEq, not_false_eq_true, true_and] at hm
  rw [hup, ← hm]
  exact ⟨Dict.mem_of_get? _ _ _, Dict.get?_of_mem _ hnd _ _⟩

/-! ## Entries -/

theorem setEntry_nodup (ids : List Str) (byDoc : Dict Str Label) (position : Option Nat) (t : Str) (ctx : Dict Str Val)
    (nr : Str × Int) (h : ctx.keys.Nodup) : (setEntry ids byDoc position t ctx nr).keys.Nodup := by
  unfold setEntry
  simp only
  split
  · exact Dict.keys_set_nodup _ _ _ h
  · split
    · exact Dict.keys_del_nodup _ _ h
    · exact h

/-- The label for a relative position. -/
def target (ids : List Str) (byDoc : Dict Str Label) (position : Option Nat) (r : Int) : Option Label :=
  (match position with
    | none => none
    | some p => if (p : Int) + r < 0 then none else some ((p : Int) + r).toNat).bind fun i => (ids[i]?).bind byDoc.get?

theorem setEntry_get? (ids : List Str) (byDoc : Dict Str Label) (position : Option Nat) (t : Str) (ctx : Dict Str Val)
    (nr : Str × Int) (h : ctx.keys.Nodup) (k : Str) :
    (setEntry ids byDoc position t ctx nr).get? k =
      if navKey nr.1 t = k then (target ids byDoc position nr.2).map (fun l => .label l.uid) else ctx.get? k := by
  have e : setEntry ids byDoc position t ctx nr = match target ids byDoc position nr.2 with
      | some l => ctx.set (navKey nr.1 t) (.label l.uid)
      | none => if ctx.has (navKey nr.1 t) then ctx.del (navKey nr.1 t) else ctx := rfl
  rw [e]
  cases target ids byDoc position nr.2 with
  | some l => simp only [Dict.get?_set, Option.map_some]
  | none =>
    simp only [Option.map_none]
    by_cases hh : ctx.has (navKey nr.1 t) = true
    · rw [if_pos hh, Dict.get?_del _ h]
    · rw [if_neg hh]
      split
      · rename_i e; subst e
        rw [Dict.get?_eq_none_iff]
        rw [Dict.has_iff] at hh
        exact hh
      · rfl

theorem navKey_eq (n t : Str) : navKey n t = n ++ ('_' :: strip (· = '.') t) := by
  simp [navKey, join]

theorem navKey_inj {n n' t t' : Str} (hl : n.length = n'.length) (h : navKey n t = navKey n' t') :
    n = n' ∧ strip (· = '.') t = strip (· = '.') t' := by
  rw [navKey_eq, navKey_eq] at h
  have := List.append_inj h hl
  simpa using this

theorem setDoc_nodup (ids : List Str) (byDoc : Dict Str Label) (t : Str) (d : Doc) (h : d.context.keys.Nodup) :
    (setDoc ids byDoc t d).context.keys.Nodup := by
  simp only [setDoc, relatives, List.foldl_cons, List.foldl_nil]
  exact setEntry_nodup _ _ _ _ _ _ (setEntry_nodup _ _ _ _ _ _ (setEntry_nodup _ _ _ _ _ _ h))

/-- The position of a document. -/
def position (ids : List Str) (id : Str) : Option Nat := if id ∈ ids then some (ids.idxOf id) else none

theorem setDoc_get? (ids : List Str) (byDoc : Dict Str Label) (t : Str) (d : Doc) (h : d.context.keys.Nodup) (k : Str) :
    (setDoc ids byDoc t d).context.get? k =
      if navKey "next".toList t = k then (target ids byDoc (position ids d.docId) 1).map (fun l => .label l.uid)
      else if navKey "curr".toList t = k then (target ids byDoc (position ids d.docId) 0).map (fun l => .label l.uid)
      else if navKey "prev".toList t = k then (target ids byDoc (position ids d.docId) (-1)).map (fun l => .label l.uid)
      else d.context.get? k := by
  simp only [setDoc, relatives, List.foldl_cons, List.foldl_nil]
  rw [setEntry_get? _ _ _ _ _ _ (setEntry_nodup _ _ _ _ _ _ (setEntry_nodup _ _ _ _ _ _ h)),
    setEntry_get? _ _ _ _ _ _ (setEntry_nodup _ _ _ _ _ _ h), setEntry_get? _ _ _ _ _ _ h]
  rfl

/-! ## All targets -/

/-- One target for one document. -/
def step (docs : List Doc) (labels : List Label) (d : Doc) (t : Str) : Doc :=
  match (idsByTarget docs).get? t with
  | none => d
  | some ids => setDoc ids (labelsByDoc labels) t d

theorem setNavigation_eq (labels : List Label) (docs : List Doc) (last : Doc) (h : docs.getLast? = some last) :
    setNavigation labels docs = docs.map fun d => last.targets.foldl (step docs labels) d := by
  unfold setNavigation
  rw [h]
  simp only
  have key : ∀ (ts : List Str) (ds : List Doc), ts.foldl (fun ds t =>
      match (idsByTarget docs).get? t with
      | none => ds
      | some ids => ds.map (setDoc ids (labelsByDoc labels) t)) ds = ds.map fun d => ts.foldl (step docs labels) d := by
    intro ts
    induction ts with
    | nil => intro ds; simp
    | cons t ts ih =>
      intro ds
      rw [List.foldl_cons, ih]
      cases hg : (idsByTarget docs).get? t with
      | none =>
        simp only [List.foldl_cons]
        apply List.map_congr_left
        intro d _
        rw [show step docs labels d t = d by simp [step, hg]]
      | some ids =>
        simp only [List.foldl_cons, List.map_map]
        apply List.map_congr_left
        intro d _
        simp only [Function.comp]
        rw [show step docs labels d t = setDoc ids (labelsByDoc labels) t d by simp [step, hg]]
  exact key last.targets docs

theorem step_docId (docs : List Doc) (labels : List Label) (d : Doc) (t : Str) :
    (step docs labels d t).docId = d.docId ∧ (step docs labels d t).targets = d.targets := by
  unfold step
  split <;> simp [setDoc]

theorem steps_docId (docs : List Doc) (labels : List Label) (d : Doc) (ts : List Str) :
    (ts.foldl (step docs labels) d).docId = d.docId ∧ (ts.foldl (step docs labels) d).targets = d.targets := by
  induction ts generalizing d with
  | nil => simp
  | cons t ts ih => rw [List.foldl_cons, (ih _).1, (ih _).2, (step_docId docs labels d t).1, (step_docId docs labels d t).2]; simp

theorem step_nodup (docs : List Doc) (labels : List Label) (d : Doc) (t : Str) (h : d.context.keys.Nodup) :
    (step docs labels d t).context.keys.Nodup := by
  unfold step
  split
  · exact h
  · exact setDoc_nodup _ _ _ _ h

theorem steps_nodup (docs : List Doc) (labels : List Label) (d : Doc) (ts : List Str) (h : d.context.keys.Nodup) :
    (ts.foldl (step docs labels) d).context.keys.Nodup := by
  induction ts generalizing d with
  | nil => exact h
  | cons t ts ih => exact ih _ (step_nodup docs labels d t h)

theorem step_other (docs : List Doc) (labels : List Label) (d : Doc) (t : Str) (h : d.context.keys.Nodup) (k : Str)
    (hk : ∀ n ∈ ["prev", "curr", "next"].map String.toList, navKey n t ≠ k) :
    (step docs labels d t).context.get? k = d.context.get? k := by
  unfold step
  split
  · rfl
  · rw [setDoc_get? _ _ _ _ h, if_neg (hk _ (by simp)), if_neg (hk _ (by simp)), if_neg (hk _ (by simp))]

theorem steps_other (docs : List Doc) (labels : List Label) (d : Doc) (ts : List Str) (h : d.context.keys.Nodup) (k : Str)
    (hk : ∀ t ∈ ts, ∀ n ∈ ["prev", "curr", "next"].map String.toList, navKey n t ≠ k) :
    (ts.foldl (step docs labels) d).context.get? k = d.context.get? k := by
  induction ts generalizing d with
  | nil => rfl
  | cons t ts ih =>
    rw [List.foldl_cons, ih _ (step_nodup docs labels d t h) (fun t' ht' => hk t' (by simp [ht'])),
      step_other docs labels d t h k (hk t (by simp))]

/-- The entries of a target that is treated. -/
theorem steps_get? (docs : List Doc) (hn : ∀ d ∈ docs, d.targets.Nodup) (labels : List Label) (d : Doc) (ts : List Str)
    (h : d.context.keys.Nodup)
    (t : Str) (ht : t ∈ ts) (hts : ts.Nodup) (hstrip : ∀ t' ∈ ts, strip (· = '.') t' = strip (· = '.') t → t' = t)
    (hr : rendered t docs ≠ []) (n : Str) (r : Int) (hnr : (n, r) ∈ relatives) :
    (ts.foldl (step docs labels) d).context.get? (navKey n t) =
      (target ((rendered t docs).map (·.docId)) (labelsByDoc labels)
        (position ((rendered t docs).map (·.docId)) d.docId) r).map (fun l => .label l.uid) := by
  have hlen : ∀ n' ∈ ["prev", "curr", "next"].map String.toList, n'.length = n.length := by
    have : n.length = 4 := by
      simp only [relatives, List.mem_cons, Prod.mk.injEq, List.not_mem_nil, or_false] at hnr
      rcases hnr with ⟨rfl, _⟩ | ⟨rfl, _⟩ | ⟨rfl, _⟩ <;> rfl
    rw [this]
    decide
  induction ts generalizing d with
  | nil => simp at ht
  | cons a ts ih =>
    simp only [List.nodup_cons] at hts
    rw [List.foldl_cons]
    by_cases ha : a = t
    · subst ha
      rw [steps_other _ _ _ _ (step_nodup _ _ _ _ h)]
      · have hg := idsByTarget_get? docs hn a
        rw [if_neg hr] at hg
        unfold step
        rw [hg]
        simp only
        rw [setDoc_get? _ _ _ _ h]
        simp only [relatives, List.mem_cons, Prod.mk.injEq, List.not_mem_nil, or_false] at hnr
        have hne : ∀ n n' : Str, n.length = n'.length → n ≠ n' → navKey n a ≠ navKey n' a :=
          fun n n' hl hne e => hne (navKey_inj hl e).1
        rcases hnr with ⟨rfl, rfl⟩ | ⟨rfl, rfl⟩ | ⟨rfl, rfl⟩
        · rw [if_neg (hne "next".toList "prev".toList rfl (by decide)),
            if_neg (hne "curr".toList "prev".toList rfl (by decide)), if_pos rfl]
        · rw [if_neg (hne "next".toList "curr".toList rfl (by decide)), if_pos rfl]
        · rw [if_pos rfl]
      · intro t' ht' n' hn' e
        have := (navKey_inj (hlen n' hn') e).2
        have := hstrip t' (by simp [ht']) this
        subst this
        exact hts.1 ht'
    · have ht' : t ∈ ts := by
        rcases List.mem_cons.1 ht with h | h
        · exact absurd h.symm ha
        · exact h
      rw [ih _ (step_nodup _ _ _ _ h) ht' hts.2 (fun t' h' => hstrip t' (by simp [h'])), (step_docId docs labels d a).1]

/-! ## Positions -/

theorem idxOf_map_docId (l : List Doc) (hn : (l.map (·.docId)).Nodup) (i : Nat) (d : Doc) (h : l[i]? = some d) :
    (l.map (·.docId)).idxOf d.docId = i := by
  have hlt : i < (l.map (·.docId)).length := by
    have := (List.getElem?_eq_some_iff.1 h).1
    simpa using this
  have : (l.map (·.docId))[i] = d.docId := by
    obtain ⟨h1, h2⟩ := List.getElem?_eq_some_iff.1 h
    simp [h2]
  rw [← this]
  exact hn.idxOf_getElem i hlt

theorem position_some (l : List Doc) (hn : (l.map (·.docId)).Nodup) (i : Nat) (d : Doc) (h : l[i]? = some d) :
    position (l.map (·.docId)) d.docId = some i := by
  have hm : d.docId ∈ l.map (·.docId) := List.mem_map.2 ⟨d, List.mem_of_getElem? h, rfl⟩
  unfold position
  rw [if_pos hm, idxOf_map_docId l hn i d h]

theorem follows_iff {α : Type} (l : List α) (hn : l.Nodup) (i : Nat) (d e : α) (h : l[i]? = some d) :
    (Follows l e d ↔ 1 ≤ i ∧ l[i - 1]? = some e) ∧ (Follows l d e ↔ l[i + 1]? = some e) := by
  have huniq : ∀ j, l[j]? = some d → j = i := by
    intro j hj
    obtain ⟨h1, h2⟩ := List.getElem?_eq_some_iff.1 h
    obtain ⟨h3, h4⟩ := List.getElem?_eq_some_iff.1 hj
    exact (hn.getElem_inj_iff).1 (h4.trans h2.symm)
  have hsplit : ∀ j (x y : α), l[j]? = some x → l[j + 1]? = some y → Follows l x y := by
    intro j x y hx hy
    obtain ⟨h1, h2⟩ := List.getElem?_eq_some_iff.1 hx
    obtain ⟨h3, h4⟩ := List.getElem?_eq_some_iff.1 hy
    refine ⟨l.take j, l.drop (j + 2), ?_⟩
    have e1 : l.drop j = x :: l.drop (j + 1) := by rw [List.drop_eq_getElem_cons h1, h2]
    have e2 : l.drop (j + 1) = y :: l.drop (j + 2) := by rw [List.drop_eq_getElem_cons h3, h4]
    rw [← e2, ← e1, List.take_append_drop]
  constructor
  · constructor
    · rintro ⟨p, q, rfl⟩
      have := huniq (p.length + 1) (by simp)
      subst this
      simp
    · rintro ⟨h1, h2⟩
      exact hsplit (i - 1) e d h2 (by rw [Nat.sub_add_cancel h1]; exact h)
  · constructor
    · rintro ⟨p, q, rfl⟩
      have := huniq p.length (by simp)
      subst this
      simp
    · intro h2
      exact hsplit i d e h h2

/-! ## Labels are grouped -/

theorem grouped_of_pairwise (ids : List Str) (ls : List Label) (hm : ∀ l ∈ ls, l.docId ∈ ids)
    (hp : ls.Pairwise fun a b => ids.idxOf a.docId ≤ ids.idxOf b.docId) : Grouped ls := by
  rintro p a q b r rfl hab x hx
  rw [List.pairwise_append, List.pairwise_cons, List.pairwise_append] at hp
  have h1 := hp.2.1.1 x (by simp [hx])
  have h2 := hp.2.1.2.2.2 x hx b (by simp)
  rw [← hab] at h2
  have he : ids.idxOf x.docId = ids.idxOf a.docId := by omega
  have hxm := hm x (by simp [hx])
  have ham := hm a (by simp)
  have g1 := List.getElem_idxOf (List.idxOf_lt_length_iff.2 hxm)
  have g2 := List.getElem_idxOf (List.idxOf_lt_length_iff.2 ham)
  rw [← g1, ← g2]
  simp only [he]

theorem Grouped.filter {ls : List Label} (h : Grouped ls) (f : Label → Bool) : Grouped (ls.filter f) := by
  induction ls with
  | nil => exact h
  | cons x xs ih =>
    rw [List.filter_cons]
    split
    · rintro p a q b r he hab y hy
      cases p with
      | nil =>
        simp only [List.nil_append, List.cons.injEq] at he
        obtain ⟨rfl, he⟩ := he
        obtain ⟨l1, l2, e1, e2, e3⟩ := List.filter_eq_append_iff.1 he
        obtain ⟨l3, l4, e4, e5, e6⟩ := List.filter_eq_cons_iff.1 e3
        refine h.continues (l1 ++ l3) b l4 (by rw [e1, e4]; simp) hab.symm y ?_
        rw [← e2] at hy
        exact List.mem_append_left _ (List.mem_filter.1 hy).1
      | cons z p =>
        simp only [List.cons_append, List.cons.injEq] at he
        exact ih h.tail p a q b r he.2 hab y hy
    · exact ih h.tail

theorem Grouped.of_given {ls ls' : List Label} (h : Grouped ls) (e : ls'.map Spec.given = ls.map Spec.given) : Grouped ls' := by
  have key : ls'.map Label.docId = ls.map Label.docId := by
    have := congrArg (List.map Spec.Given.docId) e
    simpa [List.map_map, Function.comp_def, Spec.given] using this
  rintro p a q b r rfl hab x hx
  -- take the same places in the other list
  have hlen : ls.length = (p ++ a :: (q ++ b :: r)).length := by
    have := congrArg List.length key
    simpa using this.symm
  rw [List.map_append, List.map_cons, List.map_append, List.map_cons] at key
  obtain ⟨p', t1, rfl, hp', ht1⟩ := List.append_eq_map_iff.1 key
  obtain ⟨a', t2, rfl, ha', ht2⟩ := List.map_eq_cons_iff.1 ht1
  obtain ⟨q', t3, rfl, hq', ht3⟩ := List.map_eq_append_iff.1 ht2
  obtain ⟨b', r', rfl, hb', hr'⟩ := List.map_eq_cons_iff.1 ht3
  have hxm : x.docId ∈ q'.map Label.docId := by rw [hq']; exact List.mem_map.2 ⟨x, hx, rfl⟩
  obtain ⟨x', hx', e'⟩ := List.mem_map.1 hxm
  have := h p' a' q' b' r' rfl (by rw [ha', hb', hab]) x' hx'
  rw [← e', this, ha']

theorem byDocument_grouped (ids : List Str) (ls : List Label) : Grouped (Spec.byDocument ids ls) := by
  rw [← reorder_list]
  apply grouped_of_pairwise ids
  · intro l hl
    rw [reorder_list, byDocument_mem] at hl
    exact hl.2
  · exact sortedBy_pairwise _ _

theorem register_grouped {sep : Str} {m : Manager} (h : Reachable sep m) (env : Env) : Grouped (m.register env).values := by
  have base : ∀ (m : Manager), Reachable sep m → m.registered = false → ∀ env, Grouped (m.register env).values := by
    intro m h hr env
    exact (byDocument_grouped _ _).of_given (C12_order sep m h env hr)
  cases hr : m.registered with
  | false => exact base m h hr env
  | true =>
    obtain ⟨m0, env0, h0, hr0, he, hsame⟩ := (C12_up_to_date sep m h).2.2 hr
    rw [hsame env, he]
    exact base m0 h0 hr0 env0

/-! ## Tables of contents -/

theorem strip_target {t ext : Str} (h : IsTarget t ext) : strip (· = '.') t = ext := by
  obtain ⟨rfl, h1, h2⟩ := h
  have e1 : lstrip (· = '.') ('.' :: ext) = ext := by
    unfold lstrip
    cases ext with
    | nil => rfl
    | cons c s =>
      have : c ≠ '.' := by simpa using h1
      simp [List.dropWhile, this]
  unfold strip
  rw [e1]
  unfold rstrip
  rcases List.eq_nil_or_concat ext with rfl | ⟨s, c, rfl⟩
  · rfl
  · have : c ≠ '.' := by simpa using h2
    simp [List.dropWhile, this]

theorem occurs_iff (w s : Str) : occurs w s = true ↔ w <:+: s := by
  induction s with
  | nil =>
    simp only [occurs, List.isPrefixOf_iff_prefix, List.prefix_nil, List.infix_nil]
  | cons c s ih => rw [occurs, Bool.or_eq_true, ih, List.isPrefixOf_iff_prefix, List.infix_cons_iff]

theorem abbreviate_kept (doc : Option Str) (ls before : List Label) :
    Kept (ChangeOrCurrent doc) before ls (abbreviate doc (before.getLast?.map (·.docId)) ls) := by
  induction ls generalizing before with
  | nil => exact .nil _
  | cons l ls ih =>
    have ih' := ih (before ++ [l])
    simp only [List.getLast?_append, List.getLast?_singleton, Option.some_or, Option.map_some] at ih'
    rw [abbreviate]
    by_cases h : some l.docId = doc
    · rw [if_pos h]
      exact .keep _ _ _ _ (Or.inl h) ih'
    · rw [if_neg h]
      by_cases h2 : some l.docId = before.getLast?.map (·.docId)
      · rw [if_neg (by simpa using h2)]
        refine .drop _ _ _ _ ?_ ih'
        rintro (h3 | h3)
        · exact h h3
        · cases hb : before.getLast? with
          | none => rw [hb] at h2; simp at h2
          | some b =>
            rw [hb] at h2
            exact h3 b hb (by simpa using h2.symm)
      · rw [if_pos h2]
        refine .keep _ _ _ _ (Or.inr ?_) ih'
        intro b hb e
        exact h2 (by rw [hb]; simp [e])

theorem Kept.congr {s s' : List Label → Label → Prop} {b ls ls' : List Label}
    (h : ∀ p l q, ls = p ++ l :: q → (s (b ++ p) l ↔ s' (b ++ p) l)) (hk : Kept s b ls ls') : Kept s' b ls ls' := by
  induction hk with
  | nil => exact .nil _
  | keep b l ls ls' hs _ ih =>
    refine .keep _ _ _ _ ?_ (ih fun p l' q e => ?_)
    · have := h [] l ls rfl
      simpa using this.1 (by simpa using hs)
    · have := h (l :: p) l' q (by rw [e]; rfl)
      simpa using this
  | drop b l ls ls' hs _ ih =>
    refine .drop _ _ _ _ ?_ (ih fun p l' q e => ?_)
    · have := h [] l ls rfl
      intro hs'
      exact hs (by simpa using this.2 (by simpa using hs'))
    · have := h (l :: p) l' q (by rw [e]; rfl)
      simpa using this

theorem change_iff_first (doc : Option Str) (ls : List Label) (hg : Grouped ls) (p : List Label) (l : Label) (q : List Label)
    (h : ls = p ++ l :: q) : ChangeOrCurrent doc p l ↔ FirstOrCurrent doc p l := by
  unfold ChangeOrCurrent FirstOrCurrent
  by_cases hd : some l.docId = doc
  · simp [hd]
  · simp only [hd, false_or]
    constructor
    · intro h1 b hb e
      obtain ⟨p1, p2, rfl⟩ := List.append_of_mem hb
      have hall := hg p1 b p2 l q (by rw [h]; simp) e
      rcases List.eq_nil_or_concat p2 with rfl | ⟨p3, c, rfl⟩
      · exact h1 b (by simp) e
      · have hc := hall c (by simp)
        have he : p1 ++ b :: (p3.concat c) = (p1 ++ b :: p3) ++ [c] := by simp
        exact h1 c (by rw [he, List.getLast?_concat]) (by rw [hc, e])
    · intro h1 b hb e
      exact h1 b (List.mem_of_getLast? hb) e

/-- A list that is kept is determined. -/
theorem Kept.unique {s : List Label → Label → Prop} {b ls l1 l2 : List Label} (h1 : Kept s b ls l1) (h2 : Kept s b ls l2) :
    l1 = l2 := by
  induction h1 generalizing l2 with
  | nil => cases h2; rfl
  | keep b l ls ls' hs _ ih =>
    cases h2 with
    | keep _ _ _ _ _ h => rw [ih h]
    | drop _ _ _ _ hn _ => exact absurd hs hn
  | drop b l ls ls' hs _ ih =>
    cases h2 with
    | keep _ _ _ _ hn _ => exact absurd hn hs
    | drop _ _ _ _ _ h => exact ih h

theorem hasLevel_iff (k : Str) (n : Nat) : HasLevel k n ↔ tocLevels.contains k = true ∧ tocLevels.idxOf k = n := by
  constructor
  · intro h
    cases h <;> decide
  · rintro ⟨h, rfl⟩
    simp only [tocLevels, List.map_cons, List.map_nil, List.contains_eq_mem, List.mem_cons, List.not_mem_nil, or_false,
      decide_eq_true_eq] at h
    rcases h with rfl | rfl | rfl | rfl | rfl | rfl
    · exact HasLevel.title
    · exact HasLevel.part
    · exact HasLevel.chapter
    · exact HasLevel.section
    · exact HasLevel.subsection
    · exact HasLevel.subsubsection

theorem entries_levels (ls : List Label) (n : Nat) (es : List (Str × Nat)) :
    entries n ls = some es ↔ es.map Prod.fst = ls.map (·.id) ∧ Levels n ls (es.map Prod.snd) := by
  induction ls generalizing n es with
  | nil =>
    simp only [entries, Option.some.injEq, List.map_nil, List.map_eq_nil_iff]
    constructor
    · rintro rfl; exact ⟨rfl, .nil _⟩
    · rintro ⟨h, _⟩; exact h.symm
  | cons l ls ih =>
    rw [entries]
    cases hk : l.kind.bind List.getLast? with
    | none =>
      simp only [reduceCtorEq, false_iff]
      rintro ⟨_, h⟩
      cases h' : es.map Prod.snd with
      | nil => rw [h'] at h; cases h
      | cons a as =>
        rw [h'] at h
        cases h with
        | heading _ _ _ ks k _ _ h1 _ _ => rw [h1] at hk; simp at hk
        | same _ _ ks k _ _ h1 _ _ => rw [h1] at hk; simp at hk
    | some k =>
      obtain ⟨ks, hks⟩ : ∃ ks, l.kind = some (ks ++ [k]) := by
        cases hl : l.kind with
        | none => rw [hl] at hk; simp at hk
        | some x =>
          rw [hl] at hk
          simp only [Option.bind_some] at hk
          obtain ⟨ys, hy⟩ := List.getLast?_eq_some_iff.1 hk
          exact ⟨ys, by rw [hy]⟩
      simp only [Option.map_eq_some_iff]
      constructor
      · rintro ⟨es', h1, rfl⟩
        obtain ⟨h2, h3⟩ := (ih _ _).1 h1
        refine ⟨by simp [h2], ?_⟩
        by_cases hc : tocLevels.contains k = true
        · rw [if_pos hc] at h3 ⊢
          exact .heading _ _ _ ks k _ _ hks ((hasLevel_iff k _).2 ⟨hc, rfl⟩) h3
        · rw [if_neg hc] at h3 ⊢
          exact .same _ _ ks k _ _ hks (fun m hm => hc ((hasLevel_iff k m).1 hm).1) h3
      · rintro ⟨h1, h2⟩
        cases es with
        | nil => simp at h1
        | cons e es' =>
          simp only [List.map_cons, List.cons.injEq] at h1
          refine ⟨es', ?_, ?_⟩
          · rw [ih]
            refine ⟨h1.2, ?_⟩
            simp only [List.map_cons] at h2
            cases h2 with
            | heading _ _ _ ks' k' _ _ g1 g2 g3 =>
              rw [hks] at g1
              have : k = k' := by
                simp only [Option.some.injEq] at g1
                have := congrArg List.getLast? g1
                simpa using this
              subst this
              obtain ⟨hc, hi⟩ := (hasLevel_iff k _).1 g2
              rw [if_pos hc, hi]; exact g3
            | same _ _ ks' k' _ _ g1 g2 g3 =>
              rw [hks] at g1
              have : k = k' := by
                simp only [Option.some.injEq] at g1
                have := congrArg List.getLast? g1
                simpa using this
              subst this
              have hc : ¬ tocLevels.contains k = true := fun hc => g2 _ ((hasLevel_iff k _).2 ⟨hc, rfl⟩)
              rw [if_neg hc]; exact g3
          · obtain ⟨i, n'⟩ := e
            simp only [List.map_cons] at h2
            simp only at h1
            cases h2 with
            | heading _ _ _ ks' k' _ _ g1 g2 g3 =>
              rw [hks] at g1
              have : k = k' := by
                simp only [Option.some.injEq] at g1
                have := congrArg List.getLast? g1
                simpa using this
              subst this
              obtain ⟨hc, hi⟩ := (hasLevel_iff k _).1 g2
              rw [if_pos hc, hi, h1.1]
            | same _ _ ks' k' _ _ g1 g2 g3 =>
              rw [hks] at g1
              have : k = k' := by
                simp only [Option.some.injEq] at g1
                have := congrArg List.getLast? g1
                simpa using this
              subst this
              have hc : ¬ tocLevels.contains k = true := fun hc => g2 _ ((hasLevel_iff k _).2 ⟨hc, rfl⟩)
              rw [if_neg hc, h1.1]

theorem splitWords_spaces (sp : Char → Bool) (s r : Str) (h : ∀ c ∈ s, sp c = true) :
    splitWords sp [] (s ++ r) = splitWords sp [] r := by
  induction s with
  | nil => rfl
  | cons c s ih =>
    rw [List.cons_append, splitWords, if_pos (h c (by simp)), if_pos rfl, ih (fun d hd => h d (by simp [hd]))]

theorem splitWords_word (sp : Char → Bool) (cur w r : Str) (h : ∀ c ∈ w, sp c = false) :
    splitWords sp cur (w ++ r) = splitWords sp (cur ++ w) r := by
  induction w generalizing cur with
  | nil => simp
  | cons c w ih =>
    rw [List.cons_append, splitWords, if_neg (by simp [h c (by simp)]), ih _ (fun d hd => h d (by simp [hd]))]
    simp

theorem splitWords_eq (sp : Char → Bool) (s : Str) (ws : List Str) (h : WordsOf sp s ws) : splitWords sp [] s = ws := by
  induction h with
  | none s hs =>
    have := splitWords_spaces sp s [] hs
    simpa [splitWords] using this
  | last s w hs hw hw' =>
    rw [splitWords_spaces sp s w hs]
    have := splitWords_word sp [] w [] hw'
    simp only [List.append_nil, List.nil_append] at this
    rw [this, splitWords, if_neg hw]
  | more s w c r ws hs hw hw' hc _ ih =>
    rw [splitWords_spaces sp s _ hs, splitWords_word sp [] w _ hw', List.nil_append, splitWords, if_pos hc, if_neg hw, ih]

theorem WordsOf.space {sp : Char → Bool} {s : Str} {ws : List Str} (h : WordsOf sp s ws) (c : Char) (hc : sp c = true) :
    WordsOf sp (c :: s) ws := by
  have hall : ∀ s : Str, (∀ d ∈ s, sp d = true) → ∀ d ∈ c :: s, sp d = true := by
    intro s hs d hd
    rcases List.mem_cons.1 hd with rfl | hd
    · exact hc
    · exact hs d hd
  cases h with
  | none _ hs => exact .none _ (hall _ hs)
  | last s w hs hw hw' => exact .last (c :: s) w (hall _ hs) hw hw'
  | more s w d r ws hs hw hw' hd h => exact .more (c :: s) w d r ws (hall _ hs) hw hw' hd h

theorem wordsOf_split (sp : Char → Bool) (cur s : Str) (h : ∀ c ∈ cur, sp c = false) :
    WordsOf sp (cur ++ s) (splitWords sp cur s) := by
  induction s generalizing cur with
  | nil =>
    rw [splitWords]
    split
    · rename_i e; subst e; exact .none _ (by simp)
    · rename_i e
      have := WordsOf.last (sp := sp) [] cur (by simp) e h
      simpa using this
  | cons c s ih =>
    rw [splitWords]
    by_cases hc : sp c = true
    · rw [if_pos hc]
      have h0 := ih [] (by simp)
      simp only [List.nil_append] at h0
      split
      · rename_i e; subst e
        exact h0.space c hc
      · rename_i e
        have := WordsOf.more (sp := sp) [] cur c s _ (by simp) e h hc h0
        simpa using this
    · rw [if_neg hc]
      have h1 := ih (cur ++ [c]) (by
        intro d hd
        rcases List.mem_append.1 hd with hd | hd
        · exact h d hd
        · simp only [List.mem_singleton] at hd; subst hd; simpa using hc)
      simpa using h1

theorem splitWords_iff (sp : Char → Bool) (s : Str) (ws : List Str) : splitWords sp [] s = ws ↔ WordsOf sp s ws := by
  constructor
  · rintro rfl; exact wordsOf_split sp [] s (by simp)
  · exact splitWords_eq sp s ws

end Verif.Navigation
