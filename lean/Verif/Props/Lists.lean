import Verif.Lemmas.Lists

/-!
# Properties of the list utilities (C36)
-/

namespace Verif.Lists.Props

open Verif Verif.Lists Verif.Lists.Spec

section
variable {α κ : Type} [DecidableEq κ] (key : α → κ)

/-- **C36** `uniq` keeps an item exactly when no earlier item has the same key. -/
theorem C36_uniq_keeps_first (l : List α) (a : α) :
    uniq key [] = [] ∧
    uniq key (l ++ [a]) = uniq key l ++ (if key a ∈ l.map key then [] else [a]) := by
  constructor
  · rfl
  · unfold uniq
    rw [uniqLoop_append]
    simp only [List.nil_append, uniqLoop]

/-- **C36** `uniq` keeps the order, repeats no key and misses no key. -/
theorem C36_uniq_complete (l : List α) :
    (uniq key l).Sublist l ∧ ((uniq key l).map key).Nodup ∧
    ∀ a ∈ l, key a ∈ (uniq key l).map key := by
  obtain ⟨h1, _, h3⟩ := uniqLoop_keys key [] l
  refine ⟨uniqLoop_sublist key [] l, h1, ?_⟩
  intro a ha
  rcases h3 a ha with h | h
  · simp at h
  · exact h

/-- **C36** `dupes` keeps exactly the items whose key occurs more than once. -/
theorem C36_dupes (l : List α) :
    dupes key l = l.filter fun a => l.countP (fun b => key b = key a) > 1 := by
  unfold dupes
  simp only [counts_get]

end

/-- **C36** `unwrap` removes exactly the lists with a single item around a value. -/
theorem C36_unwrap {α : Type} (v : PVal α) :
    unwrap (.list [v]) = unwrap v ∧
    ((∀ w, v ≠ .list [w]) → unwrap v = v) ∧
    (∀ w, unwrap v ≠ .list [w]) := by
  refine ⟨by rw [unwrap], ?_, ?_⟩
  · intro h
    unfold unwrap
    split
    · rename_i w; exact absurd rfl (h w)
    · rfl
  · fun_induction unwrap v with
    | case1 v ih => exact ih
    | case2 v h => exact fun w hw => h w hw

example : ∀ w, (PVal.list [.atom 1, .atom 2] : PVal Nat) ≠ .list [w] := by simp

/-- **C36** `flatten` gives the leaves in order: nothing for the empty list, the item
for an item that is no list, the flattened parts for a list or a
concatenation. -/
theorem C36_flatten {α : Type} (a : α) (l l' : List (PVal α)) :
    flatten ([] : List (PVal α)) = [] ∧ flatten [.atom a] = [a] ∧
    flatten [.list l] = flatten l ∧ flatten (l ++ l') = flatten l ++ flatten l' := by
  refine ⟨by simp [flatten], by simp [flatten, flattenElem], by simp [flatten, flattenElem], ?_⟩
  induction l with
  | nil => simp [flatten]
  | cons v l ih => simp [flatten, ih]

/-- **C36** Chunks of a positive size concatenate to the list; all chunks but the
last have exactly that size and the last is not empty. -/
theorem C36_chunks {α : Type} (l : List α) (n : Nat) :
    ∃ cs, chunks l (n + 1 : Nat) = .ok cs ∧ cs.flatten = l ∧
      (∀ c ∈ cs.dropLast, c.length = n + 1) ∧
      ∀ c ∈ cs, 0 < c.length ∧ c.length ≤ n + 1 := by
  have e : ((l.length + n) / (n + 1)) * (n + 1) ≥ l.length := by
    have := Nat.div_add_mod (l.length + n) (n + 1)
    have := Nat.mod_lt (l.length + n) (show 0 < n + 1 by omega)
    rw [Nat.mul_comm]
    omega
  have e2 : ∀ k, k < (l.length + n) / (n + 1) → k * (n + 1) < l.length := by
    intro k hk
    have h1 : (k + 1) * (n + 1) ≤ l.length + n :=
      Nat.le_trans (Nat.mul_le_mul_right (n + 1) hk) (Nat.div_mul_le_self _ _)
    rw [Nat.succ_mul] at h1
    omega
  refine ⟨_, rfl, ?_, ?_, ?_⟩
  · rw [flatMap_range_chunks l (n + 1) _ (by omega)]
    exact List.take_of_length_le e
  · intro c hc
    rw [← List.map_dropLast] at hc
    simp only [List.mem_map] at hc
    obtain ⟨k, hk, rfl⟩ := hc
    have hk' : k + 1 < (l.length + n) / (n + 1) := by
      generalize (l.length + n) / (n + 1) = m at hk
      cases m with
      | zero => simp at hk
      | succ m => rw [List.range_succ] at hk; simp at hk; omega
    have := e2 _ hk'
    rw [Nat.succ_mul] at this
    simp
    omega
  · intro c hc
    simp only [List.mem_map, List.mem_range] at hc
    obtain ⟨k, hk, rfl⟩ := hc
    have := e2 k hk
    simp
    omega

/-- **C36** Chunks of size zero are refused, and chunks of a negative size lose the
list; neither size is meaningful. -/
theorem C36_chunks_nonpositive {α : Type} (l : List α) :
    chunks l 0 = .error () ∧ ∀ n : Nat, chunks l (-(n + 1 : Nat) : Int) = .ok [] := by
  refine ⟨rfl, ?_⟩
  intro n
  rfl

/-- **C36** Transposing swaps rows and columns of every rectangular table with at
least one row. -/
theorem C36_transpose_cells {α : Type} (m n : Nat) (t : List (List α)) (hm : 0 < m)
    (h : Rect m n t) : Rect n m (transpose t) ∧ ∀ i j, cell (transpose t) j i = cell t i j :=
  ⟨transpose_rect m n t hm h, cell_transpose m n t hm h⟩

/-- **C36** Transposing twice gives back every rectangular table with at least one
row and one column. -/
theorem C36_transpose_involutive {α : Type} (m n : Nat) (t : List (List α)) (hm : 0 < m)
    (hn : 0 < n) (h : Rect m n t) : transpose (transpose t) = t := by
  have h1 := transpose_rect m n t hm h
  have h2 := transpose_rect n m _ hn h1
  apply ext_cell m n _ _ h2 h
  intro i j
  rw [cell_transpose n m _ hn h1, cell_transpose m n t hm h]

example : Rect 2 3 [[1, 2, 3], [4, 5, 6]] := by simp [Rect]

/-- **C36** A row without columns loses the table: transposing it twice gives the
empty table, so the positive column count above is needed. -/
theorem C36_transpose_no_columns : transpose (transpose [[], ([] : List Nat)]) ≠ [[], []] := by
  decide

end Verif.Lists.Props
