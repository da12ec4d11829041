import Verif.Model.Dict

namespace Verif

namespace Dict

variable {κ α : Type} [DecidableEq κ]

@[simp] theorem get?_nil (k : κ) : get? ([] : Dict κ α) k = none := rfl
@[simp] theorem keys_nil : keys ([] : Dict κ α) = [] := rfl
@[simp] theorem keys_cons (kv : κ × α) (d : Dict κ α) : keys (kv :: d) = kv.1 :: keys d := rfl

theorem get?_set (d : Dict κ α) (k k' : κ) (v : α) :
    (d.set k v).get? k' = if k = k' then some v else d.get? k' := by
  induction d with
  | nil => simp [set, get?]
  | cons kv d ih =>
    obtain ⟨k0, v0⟩ := kv
    by_cases h : k0 = k
    · subst h; simp only [set, if_true, get?]; split <;> rfl
    · simp only [set, h, if_false, get?, ih]
      by_cases h1 : k0 = k'
      · subst h1; simp; intro h2; exact absurd h2.symm h
      · simp [h1]

theorem get?_set_self (d : Dict κ α) (k : κ) (v : α) : (d.set k v).get? k = some v := by
  simp [get?_set]

theorem get?_isSome_iff (d : Dict κ α) (k : κ) : (d.get? k).isSome = true ↔ k ∈ d.keys := by
  induction d with
  | nil => simp
  | cons kv d ih =>
    obtain ⟨k0, v0⟩ := kv
    simp only [get?, keys_cons, List.mem_cons]
    split
    · rename_i h; simp [h]
    · rename_i h
      rw [ih]
      constructor
      · exact .inr
      · rintro (h' | h')
        · exact absurd h'.symm h
        · exact h'

theorem get?_eq_none_iff (d : Dict κ α) (k : κ) : d.get? k = none ↔ k ∉ d.keys := by
  rw [← get?_isSome_iff]; simp

theorem has_iff (d : Dict κ α) (k : κ) : d.has k = true ↔ k ∈ d.keys := get?_isSome_iff d k

theorem mem_of_get? (d : Dict κ α) (k : κ) (v : α) (h : d.get? k = some v) : (k, v) ∈ d := by
  induction d with
  | nil => simp at h
  | cons kv d ih =>
    obtain ⟨k0, v0⟩ := kv
    simp only [get?] at h
    split at h
    · rename_i h'; simp at h; simp [h, h']
    · simp [ih h]

theorem get?_of_mem (d : Dict κ α) (hn : d.keys.Nodup) (k : κ) (v : α) (h : (k, v) ∈ d) :
    d.get? k = some v := by
  induction d with
  | nil => simp at h
  | cons kv d ih =>
    obtain ⟨k0, v0⟩ := kv
    simp at hn
    simp only [get?]
    simp at h
    rcases h with ⟨rfl, rfl⟩ | h
    · simp
    · split
      · rename_i h'
        subst h'
        exfalso
        exact hn.1 (List.mem_map_of_mem (f := Prod.fst) h)
      · exact ih hn.2 h

theorem keys_set (d : Dict κ α) (k : κ) (v : α) :
    (d.set k v).keys = if k ∈ d.keys then d.keys else d.keys ++ [k] := by
  induction d with
  | nil => simp [set]
  | cons kv d ih =>
    obtain ⟨k0, v0⟩ := kv
    simp only [set]
    split
    · rename_i h; simp [h]
    · rename_i h
      simp only [keys_cons, ih, List.mem_cons]
      have : ¬ k = k0 := fun e => h e.symm
      simp only [this, false_or]
      split <;> simp

theorem keys_set_nodup (d : Dict κ α) (k : κ) (v : α) (h : d.keys.Nodup) :
    (d.set k v).keys.Nodup := by
  rw [keys_set]
  split
  · exact h
  · rename_i h'
    rw [List.nodup_append]
    refine ⟨h, by simp, ?_⟩
    intro a ha b hb
    simp at hb
    subst hb
    rintro rfl
    exact h' ha

theorem set_new (d : Dict κ α) (k : κ) (v : α) (h : k ∉ d.keys) : d.set k v = d ++ [(k, v)] := by
  induction d with
  | nil => simp [set]
  | cons kv d ih =>
    obtain ⟨k0, v0⟩ := kv
    simp at h
    have h1 : ¬ k0 = k := fun e => h.1 e.symm
    simp [set, h1, ih h.2]

theorem update_nodup (d : Dict κ α) (items : List (κ × α)) (h : d.keys.Nodup) :
    (d.update items).keys.Nodup := by
  unfold update
  induction items generalizing d with
  | nil => simpa
  | cons kv items ih => exact ih _ (keys_set_nodup _ _ _ h)

theorem update_append_new (d : Dict κ α) (items : List (κ × α))
    (h : (d.keys ++ items.map Prod.fst).Nodup) : d.update items = d ++ items := by
  unfold update
  induction items generalizing d with
  | nil => simp
  | cons kv items ih =>
    obtain ⟨k, v⟩ := kv
    simp only [List.foldl_cons]
    have hk : k ∉ d.keys := by
      rw [List.nodup_append] at h
      intro hk
      exact h.2.2 k hk k (by simp) rfl
    rw [set_new _ _ _ hk]
    rw [ih]
    · simp
    · simpa [keys] using h

theorem get?_append (d d' : Dict κ α) (k : κ) :
    get? (d ++ d') k = (d.get? k).or (d'.get? k) := by
  induction d with
  | nil => simp
  | cons kv d ih =>
    obtain ⟨k0, v0⟩ := kv
    simp only [List.cons_append, get?, ih]
    split <;> simp

theorem get?_del (d : Dict κ α) (hn : d.keys.Nodup) (k k' : κ) :
    (d.del k).get? k' = if k = k' then none else d.get? k' := by
  induction d with
  | nil => simp [del]
  | cons kv d ih =>
    obtain ⟨k0, v0⟩ := kv
    simp at hn
    simp only [del]
    split
    · rename_i h
      subst h
      simp only [get?]
      split
      · rename_i h; subst h
        exact (get?_eq_none_iff _ _).2 hn.1
      · rfl
    · rename_i h
      simp only [get?, ih hn.2]
      by_cases h1 : k0 = k'
      · subst h1; simp; intro h2; exact absurd h2.symm h
      · simp [h1]

theorem keys_del (d : Dict κ α) (k : κ) : (d.del k).keys = d.keys.erase k := by
  induction d with
  | nil => simp [del]
  | cons kv d ih =>
    obtain ⟨k0, v0⟩ := kv
    simp only [del, keys_cons, List.erase_cons]
    by_cases h : k0 = k
    · simp [h]
    · simp [h, ih]

theorem keys_del_nodup (d : Dict κ α) (k : κ) (h : d.keys.Nodup) : (d.del k).keys.Nodup := by
  rw [keys_del]; exact h.erase k

end Dict

/-! ### Sorting -/

section
variable {α : Type} (key : α → Nat)

theorem sortedInsert_perm (a : α) (l : List α) : (sortedInsert key a l).Perm (a :: l) := by
  induction l with
  | nil => simp [sortedInsert]
  | cons b l ih =>
    simp only [sortedInsert]
    split
    · exact .refl _
    · exact (List.Perm.cons b ih).trans (List.Perm.swap a b l)

theorem sortedBy_perm (l : List α) : (sortedBy key l).Perm l := by
  induction l with
  | nil => simp [sortedBy]
  | cons a l ih => exact (sortedInsert_perm key a _).trans (List.Perm.cons a ih)

theorem mem_sortedBy (l : List α) (a : α) : a ∈ sortedBy key l ↔ a ∈ l :=
  (sortedBy_perm key l).mem_iff

theorem sortedInsert_pairwise (a : α) (l : List α)
    (h : l.Pairwise (fun x y => key x ≤ key y)) :
    (sortedInsert key a l).Pairwise (fun x y => key x ≤ key y) := by
  induction l with
  | nil => simp [sortedInsert]
  | cons b l ih =>
    simp only [sortedInsert]
    rw [List.pairwise_cons] at h
    split
    · rename_i hab
      rw [List.pairwise_cons]
      refine ⟨?_, List.pairwise_cons.2 h⟩
      intro c hc
      simp at hc
      rcases hc with rfl | hc
      · exact hab
      · exact Nat.le_trans hab (h.1 c hc)
    · rename_i hab
      rw [List.pairwise_cons]
      refine ⟨?_, ih h.2⟩
      intro c hc
      rw [(sortedInsert_perm key a l).mem_iff] at hc
      simp at hc
      rcases hc with rfl | hc
      · omega
      · exact h.1 c hc

theorem sortedBy_pairwise (l : List α) : (sortedBy key l).Pairwise (fun x y => key x ≤ key y) := by
  induction l with
  | nil => simp [sortedBy]
  | cons a l ih => exact sortedInsert_pairwise key a _ ih

/-- A list that is sorted already is left alone. -/
theorem sortedBy_of_sorted (l : List α) (h : l.Pairwise (fun x y => key x ≤ key y)) :
    sortedBy key l = l := by
  induction l with
  | nil => rfl
  | cons a l ih =>
    rw [List.pairwise_cons] at h
    simp only [sortedBy, ih h.2]
    cases l with
    | nil => rfl
    | cons b l => simp [sortedInsert, h.1 b (by simp)]

theorem sortedInsert_filter_eq (n : Nat) (a : α) (l : List α) :
    (sortedInsert key a l).filter (fun x => key x == n) = (a :: l).filter (fun x => key x == n) := by
  induction l with
  | nil => simp [sortedInsert]
  | cons b l ih =>
    simp only [sortedInsert]
    split
    · rfl
    · rename_i h
      simp only [List.filter_cons, ih]
      by_cases h1 : key a = n
      · have h2 : ¬ key b = n := by omega
        simp [h1, h2]
      · simp [h1]

/-- Sorting is stable: items with equal keys keep their order. -/
theorem sortedBy_stable (n : Nat) (l : List α) :
    (sortedBy key l).filter (fun x => key x == n) = l.filter (fun x => key x == n) := by
  induction l with
  | nil => rfl
  | cons a l ih =>
    simp only [sortedBy, sortedInsert_filter_eq, List.filter_cons, ih]

end

end Verif
