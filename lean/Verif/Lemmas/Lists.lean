import Verif.Spec.Lists
import Verif.Lemmas.Dict

set_option linter.unusedSimpArgs false

namespace Verif.Lists

open Verif

section
variable {α κ : Type} [DecidableEq κ] (key : α → κ)

theorem uniqLoop_congr (seen seen' : List κ) (l : List α) (h : ∀ k, k ∈ seen ↔ k ∈ seen') :
    uniqLoop key seen l = uniqLoop key seen' l := by
  induction l generalizing seen seen' with
  | nil => rfl
  | cons a l ih =>
    simp only [uniqLoop, h (key a)]
    split
    · exact ih _ _ h
    · rw [ih (key a :: seen) (key a :: seen') (by simp [h])]

theorem uniqLoop_append (seen : List κ) (l l' : List α) :
    uniqLoop key seen (l ++ l') =
      uniqLoop key seen l ++ uniqLoop key (seen ++ l.map key) l' := by
  induction l generalizing seen with
  | nil => simp [uniqLoop]
  | cons a l ih =>
    simp only [List.cons_append, uniqLoop, ih]
    split
    · rename_i h
      congr 1
      apply uniqLoop_congr
      intro k; simp
      constructor
      · rintro (h' | h')
        · exact .inl h'
        · exact .inr (.inr h')
      · rintro (h' | rfl | h')
        · exact .inl h'
        · exact .inl h
        · exact .inr h'
    · simp only [List.cons_append]
      congr 2
      apply uniqLoop_congr
      intro k; simp
      constructor
      · rintro (rfl | h' | h')
        · exact .inr (.inl rfl)
        · exact .inl h'
        · exact .inr (.inr h')
      · rintro (h' | rfl | h')
        · exact .inr (.inl h')
        · exact .inl rfl
        · exact .inr (.inr h')

theorem uniqLoop_sublist (seen : List κ) (l : List α) : (uniqLoop key seen l).Sublist l := by
  induction l generalizing seen with
  | nil => simp [uniqLoop]
  | cons a l ih =>
    simp only [uniqLoop]
    split
    · exact (ih _).cons a
    · exact (ih _).cons_cons a

theorem uniqLoop_keys (seen : List κ) (l : List α) :
    ((uniqLoop key seen l).map key).Nodup ∧
    (∀ k ∈ (uniqLoop key seen l).map key, k ∉ seen) ∧
    (∀ a ∈ l, key a ∈ seen ∨ key a ∈ (uniqLoop key seen l).map key) := by
  induction l generalizing seen with
  | nil => simp [uniqLoop]
  | cons a l ih =>
    simp only [uniqLoop]
    split
    · rename_i h
      obtain ⟨h1, h2, h3⟩ := ih seen
      refine ⟨h1, h2, ?_⟩
      intro b hb
      rw [List.mem_cons] at hb
      rcases hb with rfl | hb
      · exact .inl h
      · exact h3 b hb
    · rename_i h
      obtain ⟨h1, h2, h3⟩ := ih (key a :: seen)
      refine ⟨?_, ?_, ?_⟩
      · simp only [List.map_cons, List.nodup_cons]
        exact ⟨fun hm => h2 _ hm (by simp), h1⟩
      · intro k hk
        rw [List.map_cons, List.mem_cons] at hk
        rcases hk with rfl | hk
        · exact h
        · exact fun hs => h2 k hk (by simp [hs])
      · intro b hb
        rw [List.mem_cons] at hb
        rw [List.map_cons, List.mem_cons]
        rcases hb with rfl | hb
        · exact .inr (.inl rfl)
        · rcases h3 b hb with h' | h'
          · rw [List.mem_cons] at h'
            rcases h' with h' | h'
            · exact .inr (.inl h')
            · exact .inl h'
          · exact .inr (.inr h')

omit [DecidableEq κ] in
theorem uniq_nodup {β : Type} [DecidableEq β] (l : List β) : (uniq id l).Nodup := by
  have := (uniqLoop_keys (id : β → β) [] l).1
  simpa [uniq] using this

omit [DecidableEq κ] in
theorem mem_uniq {β : Type} [DecidableEq β] (l : List β) (a : β) : a ∈ uniq id l ↔ a ∈ l := by
  constructor
  · exact fun h => (uniqLoop_sublist (id : β → β) [] l).subset h
  · intro h
    have := (uniqLoop_keys (id : β → β) [] l).2.2 a h
    simpa [uniq] using this

theorem counts_loop (l : List α) (d : Dict κ Nat) (k : κ) :
    ((l.foldl (fun d a => d.set (key a) ((d.get? (key a)).getD 0 + 1)) d).get? k).getD 0 =
      (d.get? k).getD 0 + l.countP (fun a => key a = k) := by
  induction l generalizing d with
  | nil => simp
  | cons a l ih =>
    simp only [List.foldl_cons, ih, List.countP_cons, Dict.get?_set]
    split
    · rename_i h; subst h; simp; omega
    · rename_i h; simp [h]

theorem counts_get (l : List α) (k : κ) :
    ((counts key l).get? k).getD 0 = l.countP (fun a => key a = k) := by
  simp [counts, counts_loop]

end

/-! ### chunks -/

theorem flatMap_range_chunks {α : Type} (l : List α) (n m : Nat) (hn : 0 < n) :
    ((List.range m).map fun k => (l.drop (k * n)).take n).flatten = l.take (m * n) := by
  induction m with
  | zero => simp
  | succ m ih =>
    rw [List.range_succ, List.map_append, List.flatten_append, ih]
    simp only [List.map_cons, List.map_nil, List.flatten_cons, List.flatten_nil, List.append_nil]
    rw [Nat.succ_mul, List.take_add]

/-! ### transpose -/

open Spec

theorem transpose_length {α : Type} (t : List (List α)) (n : Nat) (hne : t ≠ [])
    (h : ∀ r ∈ t, r.length = n) : (transpose t).length = n := by
  fun_induction transpose t with
  | case1 => simp at hne
  | case2 row => simp at h ⊢; exact h
  | case3 row rows hr ih =>
    simp only [List.length_zipWith]
    rw [ih (by intro h; simp [h] at hr) (fun r hr' => h r (by simp [hr'])), h row (by simp)]
    omega

theorem transpose_get {α : Type} (t : List (List α)) (n : Nat)
    (h : ∀ r ∈ t, r.length = n) (j : Nat) (hj : j < n) (hne : t ≠ []) :
    (transpose t)[j]? = some (t.filterMap (fun r => r[j]?)) := by
  fun_induction transpose t with
  | case1 => simp at hne
  | case2 row =>
    have : j < row.length := by rw [h row (by simp)]; exact hj
    simp [this]
  | case3 row rows hr ih =>
    have hj' : j < row.length := by rw [h row (by simp)]; exact hj
    have := ih (fun r hr' => h r (by simp [hr'])) (by intro h; simp [h] at hr)
    simp only [List.getElem?_zipWith]
    rw [this]
    simp [hj']

theorem filterMap_getElem?_of_isSome {α β : Type} (f : α → Option β) (l : List α)
    (h : ∀ a ∈ l, (f a).isSome = true) (i : Nat) : (l.filterMap f)[i]? = l[i]?.bind f := by
  induction l generalizing i with
  | nil => simp
  | cons a l ih =>
    have ha := h a (by simp)
    obtain ⟨b, hb⟩ := Option.isSome_iff_exists.1 ha
    rw [List.filterMap_cons_some hb]
    cases i with
    | zero => simp [hb]
    | succ i => simpa using ih (fun a ha => h a (by simp [ha])) i

theorem filterMap_length_of_isSome {α β : Type} (f : α → Option β) (l : List α)
    (h : ∀ a ∈ l, (f a).isSome = true) : (l.filterMap f).length = l.length := by
  induction l with
  | nil => simp
  | cons a l ih =>
    obtain ⟨b, hb⟩ := Option.isSome_iff_exists.1 (h a (by simp))
    rw [List.filterMap_cons_some hb]
    simp [ih (fun a ha => h a (by simp [ha]))]

theorem transpose_rect {α : Type} (m n : Nat) (t : List (List α)) (hm : 0 < m) (h : Rect m n t) :
    Rect n m (transpose t) := by
  have hne : t ≠ [] := by rintro rfl; have := h.1; simp at this; omega
  refine ⟨transpose_length t n hne h.2, ?_⟩
  intro r hr
  obtain ⟨j, hj, rfl⟩ := List.getElem_of_mem hr
  rw [transpose_length t n hne h.2] at hj
  have := transpose_get t n h.2 j hj hne
  rw [List.getElem?_eq_getElem (by rw [transpose_length t n hne h.2]; exact hj)] at this
  simp only [Option.some.injEq] at this
  rw [this, filterMap_length_of_isSome, h.1]
  intro a ha
  simp [h.2 a ha, hj]

theorem cell_transpose {α : Type} (m n : Nat) (t : List (List α)) (hm : 0 < m) (h : Rect m n t)
    (i j : Nat) : cell (transpose t) j i = cell t i j := by
  have hne : t ≠ [] := by rintro rfl; have := h.1; simp at this; omega
  by_cases hj : j < n
  · unfold cell
    rw [transpose_get t n h.2 j hj hne]
    simp only
    rw [filterMap_getElem?_of_isSome]
    · cases t[i]? <;> rfl
    · intro a ha; simp [h.2 a ha, hj]
  · have h1 : (transpose t)[j]? = none := by
      simp [transpose_length t n hne h.2]; omega
    unfold cell
    rw [h1]
    cases hi : t[i]? with
    | none => rfl
    | some r =>
      have : r ∈ t := List.mem_of_getElem? hi
      simp [h.2 r this]; omega

theorem ext_cell {α : Type} (m n : Nat) (t t' : List (List α)) (h : Rect m n t) (h' : Rect m n t')
    (hc : ∀ i j, cell t i j = cell t' i j) : t = t' := by
  apply List.ext_getElem (by rw [h.1, h'.1])
  intro i hi hi'
  apply List.ext_getElem?
  intro j
  have := hc i j
  simpa [cell, hi, hi'] using this

end Verif.Lists
