import Verif.Spec.LabelText
import Verif.Lemmas.Strings

/-!
# Lemmas on titles
-/

namespace Verif.LabelText

open Verif Verif.Labels

theorem join_eq_intercalate (sep : Str) (l : List Str) : join sep l = sep.intercalate l := by
  induction l with
  | nil => rfl
  | cons a l ih =>
    cases l with
    | nil => simp [join, List.intercalate]
    | cons b l => rw [join_cons _ _ _ (by simp), ih]; simp [List.intercalate]

theorem not_prefix_of_infix {p x y r : Str} (h : ¬ ['.', ' '] <:+: p ++ ['.']) (e : p = x ++ y) (hy : y ≠ []) :
    ¬ ['.', ' '] <+: y ++ (['.', ' '] ++ r) := by
  rintro ⟨z, hz⟩
  match y, hy with
  | [c], _ =>
    simp at hz
  | c :: d :: y, _ =>
    simp only [List.cons_append, List.nil_append, List.cons.injEq] at hz
    obtain ⟨rfl, rfl, _⟩ := hz
    exact h ⟨x, y ++ ['.'], by rw [e]; simp⟩

theorem firstSentence_split (s p : Str) (h : FirstSentence s p) : (split ['.', ' '] s).headD [] = p := by
  cases h with
  | all _ h => rw [split_of_not_infix ['.', ' '] _ (by simp) h]; rfl
  | cut _ r h =>
    have := split_append ['.', ' '] p r (by simp) (fun x y e hy => not_prefix_of_infix h e hy)
    rw [show p ++ ". ".toList ++ r = p ++ (['.', ' '] ++ r) by simp, this]
    rfl

theorem firstSentence_exists (s : Str) : ∃ p, FirstSentence s p := by
  by_cases h : ['.', ' '] <:+: s
  · have key : ∀ n, ∀ s : Str, s.length ≤ n → ['.', ' '] <:+: s → ∃ p, FirstSentence s p := by
      intro n
      induction n with
      | zero =>
        rintro s hn ⟨x, y, rfl⟩
        simp at hn
      | succ n ih =>
        rintro s hn ⟨x, y, rfl⟩
        by_cases hx : ['.', ' '] <:+: x ++ ['.']
        · obtain ⟨x', y', e⟩ := hx
          obtain ⟨y'', rfl⟩ : ∃ y'', y' = y'' ++ ['.'] := by
            cases hy : y'.reverse with
            | nil =>
              have : y' = [] := by simpa using hy
              subst this
              have := congrArg List.getLast? e
              simp at this
            | cons c t =>
              have hy' : y' = t.reverse ++ [c] := by rw [← List.reverse_reverse y', hy]; simp
              subst hy'
              rw [← List.append_assoc] at e
              have := (List.append_inj' e rfl).2
              simp at this
              exact ⟨t.reverse, by rw [this]⟩
          have e' : x = x' ++ ['.', ' '] ++ y'' := by
            rw [← List.append_assoc] at e
            exact (List.append_inj' e rfl).1.symm
          subst e'
          obtain ⟨p, hp⟩ := ih (x' ++ ['.', ' '] ++ y'') (by simp at hn ⊢; omega) ⟨x', y'', rfl⟩
          generalize hs : x' ++ ['.', ' '] ++ y'' = s at hp
          cases hp with
          | all _ h => exact absurd ⟨x', y'', hs⟩ h
          | cut _ r h =>
            refine ⟨p, ?_⟩
            have := FirstSentence.cut p (r ++ ['.', ' '] ++ y) h
            simpa [List.append_assoc] using this
        · exact ⟨x, .cut x y hx⟩
    exact key _ s (Nat.le_refl _) h
  · exact ⟨s, .all s h⟩

theorem strip_trimmed (s : Str) : Trimmed s (strip (· = '.') s) := by
  refine ⟨s.takeWhile (· = '.'), ((s.dropWhile (· = '.')).reverse.takeWhile (· = '.')).reverse, ?_, ?_, ?_, ?_, ?_⟩
  · unfold strip rstrip lstrip
    rw [List.append_assoc, ← List.reverse_append, List.takeWhile_append_dropWhile, List.reverse_reverse,
      List.takeWhile_append_dropWhile]
  · intro c hc
    simpa using (List.all_takeWhile (p := fun c => decide (c = '.')) (l := s)) |> fun h => List.all_eq_true.1 h c hc
  · intro c hc
    rw [List.mem_reverse] at hc
    simpa using (List.all_takeWhile (p := fun c => decide (c = '.'))) |> fun h => List.all_eq_true.1 h c hc
  · intro h
    unfold strip rstrip lstrip at h
    rw [List.head?_reverse] at h
    obtain ⟨x, hx⟩ : (s.dropWhile (· = '.')).reverse.dropWhile (· = '.') <:+ (s.dropWhile (· = '.')).reverse :=
      List.dropWhile_suffix _
    have hl := congrArg List.getLast? hx
    rw [List.getLast?_append, h, List.getLast?_reverse] at hl
    simp only [Option.some_or] at hl
    have := List.head?_dropWhile_not (fun c => decide (c = '.')) s
    rw [← hl] at this
    simp at this
  · intro h
    unfold strip rstrip lstrip at h
    rw [List.getLast?_reverse] at h
    have := List.head?_dropWhile_not (fun c => decide (c = '.')) (s.dropWhile (· = '.')).reverse
    rw [h] at this
    simp at this

theorem dropWhile_append_all {α : Type} (p : α → Bool) (a b : List α) (h : ∀ c ∈ a, p c = true) :
    (a ++ b).dropWhile p = b.dropWhile p := by
  induction a with
  | nil => rfl
  | cons c a ih => rw [List.cons_append, List.dropWhile_cons_of_pos (h c (by simp)), ih (fun d hd => h d (by simp [hd]))]

theorem dropWhile_head {α : Type} (p : α → Bool) (t : List α) (h : ∀ c ∈ t.head?, p c = false) : t.dropWhile p = t := by
  cases t with
  | nil => rfl
  | cons c t => rw [List.dropWhile_cons_of_neg (by simp [h c (by simp)])]

theorem trimmed_strip (s t : Str) (h : Trimmed s t) : strip (· = '.') s = t := by
  obtain ⟨a, b, rfl, ha, hb, h1, h2⟩ := h
  have ha' : ∀ c ∈ a, decide (c = '.') = true := fun c hc => by simp [ha c hc]
  have hb' : ∀ c ∈ b.reverse, decide (c = '.') = true := fun c hc => by simp [hb c (List.mem_reverse.1 hc)]
  unfold strip rstrip lstrip
  rw [List.append_assoc, dropWhile_append_all _ a _ ha']
  cases t with
  | nil =>
    rw [List.nil_append]
    have : b.dropWhile (fun c => decide (c = '.')) = [] := by
      have := dropWhile_append_all (fun c => decide (c = '.')) b [] (fun c hc => by simp [hb c hc])
      simpa using this
    rw [this]; rfl
  | cons c t =>
    have hd : (c :: t ++ b).dropWhile (fun c => decide (c = '.')) = c :: t ++ b :=
      dropWhile_head _ _ (by intro d hd; simp at hd; subst hd; simp at h1; simpa using h1)
    rw [hd, List.reverse_append, dropWhile_append_all _ _ _ hb', dropWhile_head, List.reverse_reverse]
    intro d hd
    rw [List.head?_reverse] at hd
    simp only [decide_eq_false_iff_not]
    rintro rfl
    exact h2 hd

theorem joinAppend (sep : Str) (a b : List Str) (ha : a ≠ []) (hb : b ≠ []) :
    join sep (a ++ b) = join sep a ++ sep ++ join sep b := by
  induction a with
  | nil => exact absurd rfl ha
  | cons x a ih =>
    cases a with
    | nil => rw [List.singleton_append, join_cons _ _ _ hb]; rfl
    | cons y a =>
      rw [List.cons_append, join_cons _ _ _ (by simp), ih (by simp), join_cons _ x (y :: a) (by simp)]
      simp

/-- Words without spaces, joined with single spaces, have no double space. -/
theorem join_single (l : List Str) (h : ∀ n ∈ l, n ≠ [] ∧ ' ' ∉ n) :
    ¬ [' ', ' '] <:+: join [' '] l ∧ (join [' '] l).head? ≠ some ' ' := by
  induction l with
  | nil => exact ⟨by simp [join], by simp [join]⟩
  | cons a l ih =>
    obtain ⟨i1, i2⟩ := ih (fun n hn => h n (by simp [hn]))
    obtain ⟨a1, a2⟩ := h a (by simp)
    have hh : (join [' '] (a :: l)).head? ≠ some ' ' := by
      cases a with
      | nil => exact absurd rfl a1
      | cons c a =>
        have hc : c ≠ ' ' := by rintro rfl; simp at a2
        cases l <;> simp [join, hc]
    refine ⟨?_, hh⟩
    cases l with
    | nil =>
      rintro ⟨x, y, e⟩
      apply a2
      simp only [join] at e
      rw [← e]; simp
    | cons b l =>
      rw [join_cons _ _ _ (by simp)]
      rintro ⟨x, y, e⟩
      rw [List.append_assoc, List.append_assoc] at e
      rcases List.append_eq_append_iff.1 e with ⟨z, h3, h4⟩ | ⟨z, h3, h4⟩
      · -- the spaces begin in `a`
        cases z with
        | nil =>
          simp only [List.nil_append, List.cons_append, List.cons.injEq, true_and] at h4
          rw [← h4] at i2
          simp at i2
        | cons c z =>
          simp only [List.cons_append, List.nil_append, List.cons.injEq] at h4
          apply a2
          rw [h3, ← h4.1]
          simp
      · cases z with
        | nil =>
          simp only [List.nil_append, List.cons_append, List.cons.injEq, true_and] at h4
          rw [h4] at i2
          simp at i2
        | cons c z =>
          simp only [List.cons_append, List.nil_append, List.cons.injEq] at h4
          exact i1 ⟨z, y, by rw [h4.2]; simp⟩

/-- A text with single spaces only, none of them at its ends, has no empty words. -/
theorem pieces_ne_nil (l : List Str) (hne : join [' '] l ≠ []) (h1 : (join [' '] l).head? ≠ some ' ')
    (h2 : (join [' '] l).getLast? ≠ some ' ') (h3 : ¬ [' ', ' '] <:+: join [' '] l) : ∀ w ∈ l, w ≠ [] := by
  rintro w hw rfl
  obtain ⟨a, b, rfl⟩ := List.append_of_mem hw
  cases a with
  | nil =>
    cases b with
    | nil => exact hne rfl
    | cons x b => rw [List.nil_append, join_cons _ _ _ (by simp)] at h1; simp at h1
  | cons x a =>
    rw [joinAppend _ _ _ (by simp) (by simp)] at h2 h3
    cases b with
    | nil => simp [join] at h2
    | cons y b =>
      rw [join_cons _ [] _ (by simp)] at h3
      exact h3 ⟨join [' '] (x :: a), join [' '] (y :: b), by simp⟩

end Verif.LabelText
