import Verif.Model.Strings
import Verif.Lemmas.Parser

/-!
# Lemmas on Python strings
-/

set_option linter.unusedSimpArgs false
set_option linter.unusedVariables false

namespace Verif

theorem splitGo_ne_nil (sep s : Str) (k : Nat) : splitGo sep s k ≠ [] := by
  induction s generalizing k with
  | nil => simp [splitGo]
  | cons c t ih =>
    cases k with
    | succ k => simpa [splitGo] using ih k
    | zero =>
      simp only [splitGo]
      split
      · simp
      · split <;> simp

theorem split_ne_nil (sep s : Str) : split sep s ≠ [] := splitGo_ne_nil sep s 0

theorem join_cons (sep p : Str) (ps : List Str) (h : ps ≠ []) : join sep (p :: ps) = p ++ sep ++ join sep ps := by
  cases ps with
  | nil => exact absurd rfl h
  | cons q qs => rfl

theorem join_splitGo (sep s : Str) (hs : sep ≠ []) (k : Nat) (hk : k ≤ s.length) :
    join sep (splitGo sep s k) = s.drop k := by
  induction s generalizing k with
  | nil => simp [splitGo, join]
  | cons c t ih =>
    cases k with
    | succ k => simp only [splitGo, List.drop_succ_cons]; exact ih k (by simpa using hk)
    | zero =>
      simp only [splitGo]
      split
      · rename_i hp
        obtain ⟨r, hr⟩ := List.isPrefixOf_iff_prefix.1 hp
        rw [join_cons _ _ _ (splitGo_ne_nil _ _ _)]
        cases sep with
        | nil => exact absurd rfl hs
        | cons d sep =>
          simp at hr
          obtain ⟨rfl, hr⟩ := hr
          rw [ih _ (by rw [← hr]; simp)]
          simp [← hr]
      · have := ih 0 (by omega)
        cases hsp : splitGo sep t 0 with
        | nil => exact absurd hsp (splitGo_ne_nil _ _ _)
        | cons p ps =>
          rw [hsp] at this
          cases ps with
          | nil => simp [join] at this ⊢; exact this
          | cons q qs =>
            simp only [join, List.drop_zero] at this ⊢
            simp [← this]

/-- The pieces joined by the separator are the original. -/
theorem join_split (sep s : Str) (hs : sep ≠ []) : join sep (split sep s) = s := by
  simpa [split] using join_splitGo sep s hs 0 (by omega)

/-- No separator: one piece. -/
theorem splitGo_of_not_infix (sep s : Str) (hs : sep ≠ []) (h : ¬ sep <:+: s) : splitGo sep s 0 = [s] := by
  induction s with
  | nil => rfl
  | cons c t ih =>
    simp only [splitGo]
    rw [if_neg (by
      intro hp
      exact h (List.isPrefixOf_iff_prefix.1 hp).isInfix)]
    rw [ih (fun hi => h (hi.trans (List.suffix_cons c t).isInfix))]

theorem split_of_not_infix (sep s : Str) (hs : sep ≠ []) (h : ¬ sep <:+: s) : split sep s = [s] :=
  splitGo_of_not_infix sep s hs h

theorem splitGo_skip (sep r : Str) (x : Str) : splitGo sep (x ++ r) x.length = splitGo sep r 0 := by
  induction x with
  | nil => rfl
  | cons c x ih => simpa [splitGo] using ih

/-- A piece up to a separator. The separator must not start earlier than at the given place. -/
theorem split_append (sep p r : Str) (hs : sep ≠ [])
    (h : ∀ x y, p = x ++ y → y ≠ [] → ¬ sep <+: y ++ (sep ++ r)) :
    split sep (p ++ (sep ++ r)) = p :: split sep r := by
  unfold split
  induction p with
  | nil =>
    cases sep with
    | nil => exact absurd rfl hs
    | cons d sep =>
      simp only [List.nil_append, List.cons_append, splitGo]
      rw [if_pos (by simp)]
      congr 1
      simpa using splitGo_skip (d :: sep) r sep
  | cons c p ih =>
    simp only [List.cons_append, splitGo]
    rw [if_neg (by
      intro hp
      have := List.isPrefixOf_iff_prefix.1 hp
      exact h [] (c :: p) rfl (by simp) this)]
    rw [ih (by
      intro x y e hy
      exact h (c :: x) y (by simp [e]) hy)]

/-- For a separator of one character. -/
theorem split_char (d : Char) (p r : Str) (h : d ∉ p) : split [d] (p ++ d :: r) = p :: split [d] r := by
  have := split_append [d] p r (by simp) (by
    intro x y e hy hpre
    cases y with
    | nil => exact hy rfl
    | cons z y =>
      simp at hpre
      apply h
      rw [e, ← hpre]; simp)
  simpa using this

theorem split_char_none (d : Char) (p : Str) (h : d ∉ p) : split [d] p = [p] := by
  apply split_of_not_infix _ _ (by simp)
  rintro ⟨x, y, e⟩
  apply h; rw [← e]; simp

/-- The pieces do not contain a separator of one character. -/
theorem splitGo_char_not_mem (d : Char) (s : Str) : ∀ p ∈ splitGo [d] s 0, d ∉ p := by
  induction s with
  | nil => simp [splitGo]
  | cons c t ih =>
    simp only [splitGo]
    split
    · intro p hp
      simp at hp
      rcases hp with rfl | hp
      · simp
      · exact ih p hp
    · rename_i hc
      have hdc : d ≠ c := by
        intro e; apply hc; subst e; simp
      cases hsp : splitGo [d] t 0 with
      | nil => intro p hp; simp at hp; subst hp; simpa using hdc
      | cons q qs =>
        rw [hsp] at ih
        intro p hp
        simp at hp
        rcases hp with rfl | hp
        · simp [hdc]; exact ih q (by simp)
        · exact ih p (by simp [hp])

theorem split_char_not_mem (d : Char) (s : Str) : ∀ p ∈ split [d] s, d ∉ p := splitGo_char_not_mem d s

/-- Splitting a join of pieces without the separator. -/
theorem split_join (d : Char) (ps : List Str) (hne : ps ≠ []) (h : ∀ p ∈ ps, d ∉ p) :
    split [d] (join [d] ps) = ps := by
  induction ps with
  | nil => exact absurd rfl hne
  | cons p ps ih =>
    cases ps with
    | nil => exact split_char_none d p (h p (by simp))
    | cons q qs =>
      have := split_char d p (join [d] (q :: qs)) (h p (by simp))
      simp only [join, List.append_assoc, List.cons_append, List.nil_append] at this ⊢
      rw [this, ih (by simp) (fun x hx => h x (by simp [hx]))]

end Verif
