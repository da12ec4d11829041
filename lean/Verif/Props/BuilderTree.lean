import Verif.Spec.BuilderTree

/-!
# C109: the builders in a composite builder
-/

namespace Verif.BuilderTree

open Verif Verif.BuilderTree.Spec

/-! ### Lemmas -/

mutual
theorem flattenOne_mem (e : Nat × Option Nat) : ∀ b : Builder, e ∈ flattenOne b ↔
    e = b.entry ∨ ∃ i f subs, b = .composite i f subs ∧ ∃ c, Below c subs ∧ c.entry = e
  | .single i f => by
    simp only [flattenOne, List.mem_singleton, Builder.entry]
    constructor
    · exact .inl
    · rintro (h | ⟨_, _, _, h, _⟩)
      · exact h
      · cases h
  | .composite i f subs => by
    have ih := flattenLoop_mem e subs
    simp only [flattenOne, List.mem_cons, Builder.entry]
    constructor
    · rintro (h | h)
      · exact .inl h
      · exact .inr ⟨i, f, subs, rfl, ih.mp h⟩
    · rintro (h | ⟨_, _, _, h, h'⟩)
      · exact .inl h
      · cases h; exact .inr (ih.mpr h')
theorem flattenLoop_mem (e : Nat × Option Nat) : ∀ l : Builders, e ∈ flattenLoop l ↔ ∃ c, Below c l ∧ c.entry = e
  | .nil => by
    simp only [flattenLoop, List.not_mem_nil, false_iff]
    rintro ⟨c, h, _⟩
    cases h with
    | direct h => cases h
    | deeper i f h _ => cases h
  | .cons b l => by
    have h1 := flattenOne_mem e b
    have h2 := flattenLoop_mem e l
    simp only [flattenLoop, List.mem_append, h1, h2]
    constructor
    · rintro ((h | ⟨i, f, subs, rfl, c, hc, h⟩) | ⟨c, hc, h⟩)
      · exact ⟨b, .direct (.first l), h.symm⟩
      · exact ⟨c, .deeper i f (.first l) hc, h⟩
      · refine ⟨c, ?_, h⟩
        cases hc with
        | direct hc => exact .direct (.later b hc)
        | deeper i f hi hc => exact .deeper i f (.later b hi) hc
    · rintro ⟨c, hc, h⟩
      cases hc with
      | direct hc => cases hc with
        | first => exact .inl (.inl h.symm)
        | later _ hc => exact .inr ⟨c, .direct hc, h⟩
      | deeper i f hi hc => cases hi with
        | first => exact .inl (.inr ⟨i, f, _, rfl, c, hc, h⟩)
        | later _ hi => exact .inr ⟨c, .deeper i f hi hc, h⟩
end

mutual
theorem flattenOne_length : ∀ b : Builder, (flattenOne b).length = size b
  | .single _ _ => rfl
  | .composite _ _ subs => by simp [flattenOne, size, flattenLoop_length subs]
theorem flattenLoop_length : ∀ l : Builders, (flattenLoop l).length = sizes l
  | .nil => rfl
  | .cons b l => by simp [flattenLoop, sizes, flattenOne_length b, flattenLoop_length l]
end

theorem size_pos (b : Builder) : 0 < size b := by cases b <;> simp [size]

theorem length_le : ∀ l : Builders, l.length ≤ sizes l
  | .nil => Nat.le_refl _
  | .cons b l => by
    have := length_le l
    have := size_pos b
    simp only [Builders.length, sizes]; omega

theorem length_eq : ∀ l : Builders, l.length = sizes l ↔ ∀ j g deep, In (.composite j g deep) l → deep = .nil
  | .nil => by
    constructor
    · intro _ j g deep h; cases h
    · intro _; rfl
  | .cons b l => by
    have ih := length_eq l
    have h1 := length_le l
    have h2 := size_pos b
    have hb : size b = 1 ↔ ∀ j g deep, b = .composite j g deep → deep = .nil := by
      cases b with
      | single i f => exact ⟨fun _ _ _ _ h => (by cases h), fun _ => rfl⟩
      | composite i f subs =>
        constructor
        · intro h j g deep e
          cases e
          cases subs with
          | nil => rfl
          | cons c m =>
            have := size_pos c
            simp only [size, sizes] at h; omega
        · intro h
          have := h i f subs rfl
          subst this; rfl
    simp only [Builders.length, sizes]
    constructor
    · intro h j g deep hi
      cases hi with
      | first => exact hb.mp (by omega) j g deep rfl
      | later _ hi => exact ih.mp (by omega) j g deep hi
    · intro h
      have e1 := hb.mpr fun j g deep e => h j g deep (by rw [e]; exact .first l)
      have e2 := ih.mpr fun j g deep hi => h j g deep (.later b hi)
      omega

/-- What one sub-builder counts for in `len`. -/
def counts (b : Builder) : Nat := 1 + match b.subs? with | none => 0 | some subs => subs.length

theorem lenLoop_add : ∀ (l : Builders) (n : Nat), lenLoop l n = n + lenLoop l 0
  | .nil, n => rfl
  | .cons b l, n => by
    simp only [lenLoop]
    cases b.subs? with
    | none => simp only; rw [lenLoop_add l (n + 1), lenLoop_add l (0 + 1)]; omega
    | some subs => simp only; rw [lenLoop_add l (n + 1 + _), lenLoop_add l (0 + 1 + _)]; omega

theorem len_cons (b : Builder) (l : Builders) : len (.cons b l) = counts b + len l := by
  unfold len counts
  simp only [lenLoop]
  cases b.subs? with
  | none => simp only; rw [lenLoop_add l (0 + 1)]
  | some subs => simp only; rw [lenLoop_add l (0 + 1 + _)]

theorem counts_le (b : Builder) : counts b ≤ size b := by
  cases b with
  | single => exact Nat.le_refl _
  | composite i f subs => have := length_le subs; simp only [counts, Builder.subs?, size]; omega

theorem counts_eq (b : Builder) : counts b = size b ↔
    ∀ i f inner, b = .composite i f inner → ∀ j g deep, In (.composite j g deep) inner → deep = .nil := by
  cases b with
  | single => exact ⟨fun _ _ _ _ h => (by cases h), fun _ => rfl⟩
  | composite i f subs =>
    have := length_eq subs
    simp only [counts, Builder.subs?, size]
    constructor
    · intro h i' f' inner e
      cases e
      exact this.mp (by omega)
    · intro h
      have := this.mpr (h i f subs rfl)
      omega

theorem len_le : ∀ l : Builders, len l ≤ sizes l
  | .nil => Nat.le_refl _
  | .cons b l => by
    have := len_le l
    have := counts_le b
    rw [len_cons]; simp only [sizes]; omega

theorem len_eq : ∀ l : Builders, len l = sizes l ↔ TwoLevels l
  | .nil => ⟨fun _ _ _ _ h => (by cases h), fun _ => rfl⟩
  | .cons b l => by
    have ih := len_eq l
    have h1 := len_le l
    have h2 := counts_le b
    have hb := counts_eq b
    rw [len_cons]
    simp only [sizes]
    constructor
    · intro h i f inner hi
      cases hi with
      | first => exact hb.mp (by omega) i f inner rfl
      | later _ hi => exact ih.mp (by omega) i f inner hi
    · intro h
      have e1 := hb.mpr fun i f inner e => h i f inner (by rw [e]; exact .first l)
      have e2 := ih.mpr fun i f inner hi => h i f inner (.later b hi)
      omega

/-! ### Theorems -/

/-- A builder 0 with a single builder 1 and a composite builder 2, in which there are 3 and the composite builder 4 with 5. -/
def sample (deep : Builders) : Builders :=
  .cons (.single 1 none) (.cons (.composite 2 none (.cons (.single 3 (some 7)) (.cons (.composite 4 (some 8) deep) .nil))) .nil)

/-- The list of a builder has the builder first, then just those below it at any depth, each as often as it is there. -/
theorem C109_flatten (id : Nat) (future : Option Nat) (subs : Builders) :
    ∃ rest, flatten id future subs none = (id, future) :: rest ∧
      (∀ e, e ∈ rest ↔ ∃ b, Below b subs ∧ b.entry = e) ∧ rest.length = sizes subs :=
  ⟨_, rfl, fun e => flattenLoop_mem e subs, flattenLoop_length subs⟩

example : flatten 0 none (sample (.cons (.single 5 (some 9)) .nil)) none =
    [(0, none), (1, none), (2, none), (3, some 7), (4, some 8), (5, some 9)] := by decide

/-- The list is in the order of the sub-builders, and each composite builder is before its own. -/
theorem C109_order (id : Nat) (future : Option Nat) (l : Builders) (i : Nat) (f : Option Nat) :
    flatten id future .nil none = [(id, future)] ∧
    flatten id future (.cons (.single i f) l) none = (id, future) :: (i, f) :: (flatten id future l none).tail ∧
    (∀ subs, flatten id future (.cons (.composite i f subs) l) none =
      (id, future) :: (flatten i f subs none ++ (flatten id future l none).tail)) := by
  refine ⟨rfl, rfl, fun subs => rfl⟩

/-- The futures are those of the builder and of the builders below it. -/
theorem C109_futures (id : Nat) (future : Option Nat) (subs : Builders) (n : Nat) :
    n ∈ futures id future subs none ↔ future = some n ∨ ∃ b, Below b subs ∧ b.entry.2 = some n := by
  unfold futures
  simp only [flatten, Option.getD_none, Builder.entry, List.mem_filterMap, List.mem_cons]
  constructor
  · rintro ⟨e, rfl | h, hn⟩
    · exact .inl hn
    · obtain ⟨b, hb, rfl⟩ := (flattenLoop_mem e subs).mp h
      exact .inr ⟨b, hb, hn⟩
  · rintro (h | ⟨b, hb, h⟩)
    · exact ⟨_, .inl rfl, h⟩
    · exact ⟨_, .inr ((flattenLoop_mem _ subs).mpr ⟨b, hb, rfl⟩), h⟩

/-- The length of a composite builder is the number of the builders below it exactly if these are on two levels. It is
never more. -/
theorem C109_length_partial (subs : Builders) : len subs ≤ sizes subs ∧ (len subs = sizes subs ↔ TwoLevels subs) :=
  ⟨len_le subs, len_eq subs⟩

example : len (sample .nil) = 4 ∧ sizes (sample .nil) = 4 := by decide

/-- Finding: builders on the third level are not counted, however many there are. -/
theorem C109_length_refuted (deep : Builders) : len (sample deep) = 4 ∧ sizes (sample deep) = sizes deep + 4 := by
  constructor
  · rfl
  · simp only [sample, sizes, size]; omega

/-- Finding: for a builder that is given the list has that builder, but then the builders below the one that was asked,
not those below the one that was given. -/
theorem C109_given_refuted (id i : Nat) (future f : Option Nat) (subs inner : Builders) :
    flatten id future subs (some (.composite i f inner)) = (i, f) :: (flatten id future subs none).tail := rfl

end Verif.BuilderTree
