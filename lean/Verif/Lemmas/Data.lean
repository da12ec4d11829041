import Verif.Model.Data
import Verif.Spec.Data
import Verif.Lemmas.Dict
import Verif.Lemmas.Strings

namespace Verif.Data

open Verif Verif.Data.Spec

variable {α : Type}

theorem heads_none (rows : List (List α)) : heads rows = none ↔ [] ∈ rows := by
  induction rows with
  | nil => simp [heads]
  | cons r rows ih =>
    cases r with
    | nil => simp [heads]
    | cons a t =>
      rw [heads]
      cases h : heads rows with
      | none => simp [ih.1 h]
      | some p =>
        obtain ⟨hs, ts⟩ := p
        have : ¬ [] ∈ rows := fun hm => by rw [ih.2 hm] at h; cases h
        simp [this]

theorem heads_some (rows : List (List α)) (hs : List α) (ts : List (List α)) (h : heads rows = some (hs, ts)) :
    hs.length = rows.length ∧ ts.length = rows.length ∧
      ∀ (i : Nat) (r : List α), rows[i]? = some r → ∃ a t, r = a :: t ∧ hs[i]? = some a ∧ ts[i]? = some t := by
  induction rows generalizing hs ts with
  | nil => simp only [heads, Option.some.injEq, Prod.mk.injEq] at h; obtain ⟨rfl, rfl⟩ := h; simp
  | cons r rows ih =>
    cases r with
    | nil => simp [heads] at h
    | cons a t =>
      rw [heads] at h
      cases h' : heads rows with
      | none => rw [h'] at h; simp at h
      | some p =>
        obtain ⟨hs', ts'⟩ := p
        rw [h'] at h
        simp only [Option.some.injEq, Prod.mk.injEq] at h
        obtain ⟨rfl, rfl⟩ := h
        obtain ⟨h1, h2, h3⟩ := ih hs' ts' h'
        refine ⟨by simp [h1], by simp [h2], ?_⟩
        intro i r hr
        cases i with
        | zero =>
          simp only [List.getElem?_cons_zero, Option.some.injEq] at hr
          exact ⟨a, t, hr.symm, by simp, by simp⟩
        | succ i =>
          rw [List.getElem?_cons_succ] at hr
          obtain ⟨b, u, e1, e2, e3⟩ := h3 i r hr
          exact ⟨b, u, e1, by simpa using e2, by simpa using e3⟩

theorem zipFrom_spec (r : List α) (rows : List (List α)) (w : Nat) (hw : IsWidth (r :: rows) w) :
    (zipFrom r rows).length = w ∧ ∀ (j : Nat) (c : List α), (zipFrom r rows)[j]? = some c → IsColumn (r :: rows) j c := by
  induction r generalizing rows w with
  | nil =>
    have : w = 0 := by have := hw.1 [] (by simp); simpa using this
    simp [zipFrom, this]
  | cons a r ih =>
    rw [zipFrom]
    cases h : heads rows with
    | none =>
      have hm := (heads_none rows).1 h
      have : w = 0 := by have := hw.1 [] (by simp [hm]); simpa using this
      simp [this]
    | some p =>
      obtain ⟨hs, ts⟩ := p
      obtain ⟨h1, h2, h3⟩ := heads_some rows hs ts h
      have hnil : [] ∉ rows := fun hm => by rw [(heads_none rows).2 hm] at h; cases h
      have hrows : ∀ (i : Nat) (t : List α), ts[i]? = some t → ∃ b, rows[i]? = some (b :: t) := by
        intro i t ht
        have hi : i < rows.length := by rw [← h2]; exact (List.getElem?_eq_some_iff.1 ht).1
        obtain ⟨b, u, e1, _, e3⟩ := h3 i rows[i] (by simp [hi])
        rw [ht] at e3
        simp only [Option.some.injEq] at e3
        refine ⟨b, ?_⟩
        rw [List.getElem?_eq_getElem hi, e1, e3]
      obtain ⟨w', rfl⟩ : ∃ w', w = w' + 1 := by
        obtain ⟨q, hq, hql⟩ := hw.2
        cases q with
        | nil =>
          rcases List.mem_cons.1 hq with hq | hq
          · cases hq
          · exact absurd hq hnil
        | cons b q => exact ⟨q.length, by simpa using hql.symm⟩
      have hw' : IsWidth (r :: ts) w' := by
        constructor
        · intro q hq
          rcases List.mem_cons.1 hq with rfl | hq
          · have := hw.1 (a :: q) (by simp); simpa using this
          · obtain ⟨i, hi⟩ := List.mem_iff_getElem?.1 hq
            obtain ⟨b, hb⟩ := hrows i q hi
            have := hw.1 (b :: q) (by simp [List.mem_of_getElem? hb]); simpa using this
        · obtain ⟨q, hq, hql⟩ := hw.2
          rcases List.mem_cons.1 hq with rfl | hq
          · exact ⟨r, by simp, by simpa using hql⟩
          · obtain ⟨i, hi⟩ := List.mem_iff_getElem?.1 hq
            obtain ⟨b, u, rfl, _, e3⟩ := h3 i q hi
            exact ⟨u, by simp [List.mem_of_getElem? e3], by simpa using hql⟩
      obtain ⟨l1, l2⟩ := ih ts w' hw'
      refine ⟨by simp [l1], ?_⟩
      intro j c hc
      cases j with
      | zero =>
        simp only [List.getElem?_cons_zero, Option.some.injEq] at hc
        subst hc
        refine ⟨by simp [h1], ?_⟩
        intro i q hq
        cases i with
        | zero =>
          simp only [List.getElem?_cons_zero, Option.some.injEq] at hq
          subst hq
          exact ⟨a, by simp, by simp⟩
        | succ i =>
          rw [List.getElem?_cons_succ] at hq
          obtain ⟨b, u, rfl, e2, _⟩ := h3 i q hq
          exact ⟨b, by simp, by simpa using e2⟩
      | succ j =>
        rw [List.getElem?_cons_succ] at hc
        obtain ⟨k1, k2⟩ := l2 j c hc
        refine ⟨by simp only [List.length_cons] at k1 ⊢; omega, ?_⟩
        intro i q hq
        cases i with
        | zero =>
          simp only [List.getElem?_cons_zero, Option.some.injEq] at hq
          subst hq
          obtain ⟨b, e1, e2⟩ := k2 0 r (by simp)
          exact ⟨b, by simpa using e1, e2⟩
        | succ i =>
          rw [List.getElem?_cons_succ] at hq
          obtain ⟨b, u, rfl, _, e3⟩ := h3 i q hq
          obtain ⟨x, e1, e2⟩ := k2 (i + 1) u (by simpa using e3)
          exact ⟨x, by simpa using e1, e2⟩

theorem transpose_spec (rows : List (List α)) (w : Nat) (hw : IsWidth rows w) :
    (transpose rows).length = w ∧ ∀ (j : Nat) (c : List α), (transpose rows)[j]? = some c → IsColumn rows j c := by
  cases rows with
  | nil => obtain ⟨r, hr, _⟩ := hw.2; simp at hr
  | cons r rows => exact zipFrom_spec r rows w hw

/-- There is a shortest row. -/
theorem exists_width (rows : List (List α)) (h : rows ≠ []) : ∃ w, IsWidth rows w := by
  induction rows with
  | nil => exact absurd rfl h
  | cons r rows ih =>
    by_cases hn : rows = []
    · subst hn; exact ⟨r.length, by simp, r, by simp, rfl⟩
    · obtain ⟨w, h1, q, hq, hql⟩ := ih hn
      by_cases hr : r.length ≤ w
      · refine ⟨r.length, ?_, r, by simp, rfl⟩
        intro x hx
        rcases List.mem_cons.1 hx with rfl | hx
        · exact Nat.le_refl _
        · exact Nat.le_trans hr (h1 x hx)
      · refine ⟨w, ?_, q, by simp [hq], hql⟩
        intro x hx
        rcases List.mem_cons.1 hx with rfl | hx
        · omega
        · exact h1 x hx

/-- Columns of the same rows, one for each place below `w`, give the rows back. -/
theorem transpose_columns (rows cols : List (List α)) (w : Nat) (hw : 0 < w) (hlen : cols.length = w)
    (hcol : ∀ (j : Nat) (c : List α), cols[j]? = some c → IsColumn rows j c) :
    transpose cols = rows.map (List.take w) := by
  have hwd : IsWidth cols rows.length := by
    constructor
    · intro c hc
      obtain ⟨j, hj⟩ := List.mem_iff_getElem?.1 hc
      exact Nat.le_of_eq (hcol j c hj).1.symm
    · have h0 : 0 < cols.length := by omega
      exact ⟨cols[0], List.getElem_mem h0, (hcol 0 cols[0] (by simp [h0])).1⟩
  obtain ⟨t1, t2⟩ := transpose_spec cols rows.length hwd
  apply List.ext_getElem?
  intro i
  rw [List.getElem?_map]
  by_cases hi : i < rows.length
  · have hti : i < (transpose cols).length := by omega
    rw [List.getElem?_eq_getElem hti, List.getElem?_eq_getElem hi, Option.map_some]
    congr 1
    obtain ⟨k1, k2⟩ := t2 i _ (List.getElem?_eq_getElem hti)
    apply List.ext_getElem?
    intro j
    by_cases hj : j < w
    · have hjc : j < cols.length := by omega
      obtain ⟨a, e1, e2⟩ := k2 j cols[j] (by simp [hjc])
      obtain ⟨b, e3, e4⟩ := (hcol j cols[j] (by simp [hjc])).2 i rows[i] (by simp [hi])
      rw [e2, ← e1, e4, List.getElem?_take_of_lt hj, e3]
    · rw [List.getElem?_eq_none (by omega), List.getElem?_eq_none (by simp; omega)]
  · rw [List.getElem?_eq_none (by omega), List.getElem?_eq_none (by omega)]
    rfl

/-- The first columns. -/
theorem transpose_take (rows cols : List (List α)) (w : Nat) (hw : 0 < w) (hlen : w ≤ cols.length)
    (hcol : ∀ (j : Nat) (c : List α), cols[j]? = some c → IsColumn rows j c) :
    transpose (cols.take w) = rows.map (List.take w) := by
  refine transpose_columns rows (cols.take w) w hw (by simp; omega) ?_
  intro j c hj
  by_cases h : j < w
  · rw [List.getElem?_take_of_lt h] at hj; exact hcol j c hj
  · rw [List.getElem?_eq_none (by simp; omega)] at hj; cases hj

/-! ## Loading -/

theorem named_fst (f : List Str) (cols : List (List Str)) : (named f cols).map Prod.fst = (f.take cols.length).map .name := by
  induction f generalizing cols with
  | nil => simp [named]
  | cons a f ih => cases cols <;> simp [named, ih]

theorem named_snd (f : List Str) (cols : List (List Str)) : (named f cols).map Prod.snd = cols.take f.length := by
  induction f generalizing cols with
  | nil => simp [named]
  | cons a f ih => cases cols <;> simp [named, ih]

theorem numbered_fst (n : Nat) (f : List Str) (cols : List (List Str)) :
    (numbered n f cols).map Prod.fst = (List.range' n (min f.length cols.length)).map .num := by
  induction f generalizing n cols with
  | nil => simp [numbered]
  | cons a f ih => cases cols <;> simp [numbered, ih, Nat.succ_min_succ, List.range'_succ]

theorem numbered_snd (n : Nat) (f : List Str) (cols : List (List Str)) :
    (numbered n f cols).map Prod.snd = (f.zipWith List.cons cols) := by
  induction f generalizing n cols with
  | nil => simp [numbered]
  | cons a f ih => cases cols <;> simp [numbered, ih]

theorem update_nil {κ β : Type} [DecidableEq κ] (items : List (κ × β)) (h : (items.map Prod.fst).Nodup) :
    Dict.update [] items = items := by
  rw [Dict.update_append_new [] items (by simpa using h)]; rfl

theorem name_nodup (f : List Str) (h : f.Nodup) : (f.map Key.name).Nodup := by
  rw [List.nodup_iff_pairwise_ne, List.pairwise_map]
  exact h.imp fun hab e => hab (by simpa using e)

theorem num_nodup (n k : Nat) : ((List.range' n k).map Key.num).Nodup := by
  rw [List.nodup_iff_pairwise_ne, List.pairwise_map]
  exact (List.nodup_range' (s := n) (n := k)).imp fun hab e => hab (by simpa using e)

end Verif.Data
