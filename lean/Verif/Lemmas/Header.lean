import Verif.Model.Header
import Verif.Spec.Header
import Verif.Lemmas.Parser

/-!
# Lemmas on header blocks
-/

set_option linter.unusedSimpArgs false
set_option linter.unusedVariables false

namespace Verif.Header

open Verif Verif.Header.Spec

variable {sp : Char → Bool}

theorem takeWhile_append_dropWhile' (p : Char → Bool) (s : Str) : s.takeWhile p ++ s.dropWhile p = s :=
  List.takeWhile_append_dropWhile

theorem mem_takeWhile (p : Char → Bool) (s : Str) : ∀ c ∈ s.takeWhile p, p c = true := by
  induction s with
  | nil => simp
  | cons c s ih =>
    simp only [List.takeWhile_cons]
    split
    · intro d hd; simp at hd; rcases hd with rfl | hd
      · assumption
      · exact ih d hd
    · simp

theorem closeAt_sound {ds s rest : Str} (h : closeAt sp ds s = some rest) :
    ∃ indent nl, s = ['\n'] ++ indent ++ ds ++ nl ++ rest ∧ (∀ c ∈ indent, sp c = true) ∧
      (nl = [] ∨ nl = ['\n']) := by
  unfold closeAt at h
  split at h
  · rename_i t
    simp only at h
    split at h
    · rename_i hp
      have hp := List.isPrefixOf_iff_prefix.1 hp
      obtain ⟨u', hu'⟩ := hp
      have ht := takeWhile_append_dropWhile' sp t
      have hd : (t.dropWhile sp).drop ds.length = u' := by rw [← hu']; simp
      rw [hd] at h
      have fin : ∀ nl, u' = nl ++ rest → '\n' :: t = ['\n'] ++ t.takeWhile sp ++ ds ++ nl ++ rest := by
        intro nl hnl
        simp only [List.cons_append, List.nil_append, List.append_assoc]
        rw [← hnl, hu', ht]
      split at h
      · simp at h; subst h
        exact ⟨t.takeWhile sp, ['\n'], fin _ rfl, mem_takeWhile _ _, .inr rfl⟩
      · simp at h; subst h
        exact ⟨t.takeWhile sp, [], fin _ rfl, mem_takeWhile _ _, .inl rfl⟩
    · simp at h
  · simp at h

theorem closeAt_complete {ds : Str} (hsp : Spaces sp) (hds : ∀ c ∈ ds, c = '-') (hne : ds ≠ [])
    (indent r : Str) (hi : ∀ c ∈ indent, sp c = true) :
    closeAt sp ds (['\n'] ++ indent ++ ds ++ r) = some (match r with | '\n' :: r' => r' | r => r) := by
  have : (indent ++ ds ++ r).dropWhile sp = ds ++ r := by
    rw [List.append_assoc, List.dropWhile_append_of_pos hi]
    cases ds with
    | nil => exact absurd rfl hne
    | cons d ds =>
      have := hds d (by simp)
      subst this
      simp [List.dropWhile_cons, hsp.dash]
  simp only [List.cons_append, List.nil_append, closeAt, this]
  rw [if_pos (by simp)]
  simp only [List.drop_left]
  split <;> simp_all

theorem findClose_sound {ds s h rest : Str} (hf : findClose sp ds s = some (h, rest)) :
    ∃ indent nl, s = h ++ ['\n'] ++ indent ++ ds ++ nl ++ rest ∧ (∀ c ∈ indent, sp c = true) ∧
      (nl = [] ∨ nl = ['\n']) := by
  induction s generalizing h with
  | nil => simp [findClose] at hf
  | cons c t ih =>
    simp only [findClose] at hf
    split at hf
    · rename_i r hr
      simp at hf
      obtain ⟨rfl, rfl⟩ := hf
      simpa using closeAt_sound hr
    · simp only [Option.map_eq_some_iff] at hf
      obtain ⟨⟨h', r'⟩, h1, h2⟩ := hf
      simp at h2
      obtain ⟨rfl, rfl⟩ := h2
      obtain ⟨i, nl, e, h3, h4⟩ := ih h1
      exact ⟨i, nl, by simp [e], h3, h4⟩

/-- A closing marker is found, no later than any given one. -/
theorem findClose_complete {ds : Str} (hsp : Spaces sp) (hds : ∀ c ∈ ds, c = '-') (hne : ds ≠ [])
    (h indent r : Str) (hi : ∀ c ∈ indent, sp c = true) :
    ∃ h' rest', findClose sp ds (h ++ ['\n'] ++ indent ++ ds ++ r) = some (h', rest') ∧ h' <+: h ∧
      (h' = h → rest' = match r with | '\n' :: r' => r' | r => r) := by
  induction h with
  | nil =>
    refine ⟨[], _, ?_, List.nil_prefix, fun _ => rfl⟩
    have := closeAt_complete hsp hds hne indent r hi
    simp only [List.cons_append, List.nil_append] at this ⊢
    simp only [findClose, this]
  | cons c h ih =>
    obtain ⟨h', rest', h1, h2, h3⟩ := ih
    simp only [List.cons_append, List.nil_append] at h1 ⊢
    simp only [findClose]
    split
    · exact ⟨[], _, rfl, List.nil_prefix, by simp⟩
    · rw [h1]
      exact ⟨c :: h', rest', rfl, by simpa using h2, by intro e; simp at e; exact h3 e⟩

theorem starts_mem {s u : Str} (h : u ∈ starts sp s) :
    ∃ trail, s = trail ++ ['\n'] ++ u ∧ ∀ c ∈ trail, sp c = true := by
  induction s with
  | nil => simp [starts] at h
  | cons c t ih =>
    simp only [starts] at h
    split at h
    · rename_i hc
      simp only [List.mem_append] at h
      rcases h with h | h
      · obtain ⟨tr, e, h2⟩ := ih h
        refine ⟨c :: tr, by simp [e], ?_⟩
        intro d hd; simp at hd; rcases hd with rfl | hd
        · exact hc
        · exact h2 d hd
      · split at h
        · rename_i hn; simp at h; subst h; subst hn
          exact ⟨[], rfl, by simp⟩
        · simp at h
    · simp at h

theorem mem_starts (hsp : Spaces sp) (trail u : Str) (h : ∀ c ∈ trail, sp c = true) :
    u ∈ starts sp (trail ++ ['\n'] ++ u) := by
  induction trail with
  | nil => simp [starts, hsp.nl]
  | cons c t ih =>
    simp only [List.cons_append, starts]
    rw [if_pos (h c (by simp))]
    simp only [List.mem_append]
    exact .inl (ih fun d hd => h d (by simp [hd]))

theorem matchHeader_sound {s h rest : Str} (hm : matchHeader sp s = some (h, rest)) :
    ∃ b, s = b ++ rest ∧ IsBlock sp b h := by
  unfold matchHeader at hm
  simp only at hm
  split at hm
  · simp at hm
  · rename_i hlen
    obtain ⟨u, hu, hb⟩ := List.exists_of_findSome?_eq_some hm
    obtain ⟨trail, e1, h1⟩ := starts_mem hu
    cases u with
    | nil => simp [body] at hb
    | cons c t =>
      simp only [body, Option.map_eq_some_iff] at hb
      obtain ⟨⟨h', r'⟩, h2, h3⟩ := hb
      simp at h3
      obtain ⟨rfl, rfl⟩ := h3
      obtain ⟨indent, nl, e2, h4, h5⟩ := findClose_sound h2
      have e3 := takeWhile_append_dropWhile' sp s
      have e4 := takeWhile_append_dropWhile' (fun c => decide (c = '-')) (s.dropWhile sp)
      refine ⟨_, ?_, s.takeWhile sp, (s.dropWhile sp).takeWhile (fun c => decide (c = '-')), trail, indent, nl,
        rfl, mem_takeWhile _ _, h1, h4, ?_, by omega, by simp, h5⟩
      · rw [← e3]
        conv => lhs; rw [← e4, e1, e2]
        simp [List.append_assoc]
      · intro c hc
        simpa using mem_takeWhile _ _ c hc

/-- A block at the start of a text is found (possibly with a shorter header). -/
theorem matchHeader_complete (hsp : Spaces sp) (b h r : Str) (hb : IsBlock sp b h) :
    ∃ h' rest', matchHeader sp (b ++ r) = some (h', rest') := by
  obtain ⟨lead, marker, trail, indent, nl, rfl, h1, h2, h3, h4, h5, h6, h7⟩ := hb
  have hm : marker ≠ [] := by intro h; simp [h] at h5
  have hnd : ∀ w : Str, (marker ++ w).dropWhile sp = marker ++ w := by
    intro w
    cases marker with
    | nil => exact absurd rfl hm
    | cons d m =>
      have := h4 d (by simp)
      subst this
      simp [List.dropWhile_cons, hsp.dash]
  have htw : ∀ w : Str, (∀ c ∈ w.head?, c ≠ '-') →
      (marker ++ w).takeWhile (fun c => decide (c = '-')) = marker ∧
      (marker ++ w).dropWhile (fun c => decide (c = '-')) = w := by
    intro w hw
    have hall : ∀ c ∈ marker, decide (c = '-') = true := by simpa using h4
    rw [List.takeWhile_append_of_pos hall, List.dropWhile_append_of_pos hall]
    cases w with
    | nil => simp
    | cons c w =>
      have : c ≠ '-' := hw c (by simp)
      simp [this]
  have hhead : ∀ c ∈ (trail ++ ('\n' :: (h ++ ('\n' :: (indent ++ (marker ++ (nl ++ r))))))).head?, c ≠ '-' := by
    intro c hc
    cases trail with
    | nil => simp at hc; subst hc; decide
    | cons d t =>
      simp at hc; subst hc
      intro hd
      have := h2 d (by simp)
      rw [hd, hsp.dash] at this; simp at this
  unfold matchHeader
  simp only [List.append_assoc, List.cons_append, List.nil_append]
  rw [List.dropWhile_append_of_pos h1, hnd, (htw _ hhead).1, (htw _ hhead).2, if_neg (by omega)]
  have hin := mem_starts hsp trail (h ++ ('\n' :: (indent ++ (marker ++ (nl ++ r))))) h2
  simp only [List.append_assoc, List.cons_append, List.nil_append] at hin
  have : (List.findSome? (body sp marker)
      (starts sp (trail ++ '\n' :: (h ++ '\n' :: (indent ++ (marker ++ (nl ++ r))))))).isSome := by
    rw [List.isSome_findSome?]
    rw [List.any_eq_true]
    refine ⟨_, hin, ?_⟩
    cases h with
    | nil => exact absurd rfl h6
    | cons c h =>
      obtain ⟨h', rest', e, _⟩ := findClose_complete hsp h4 hm h indent (nl ++ r) h3
      simp only [List.append_assoc, List.cons_append, List.nil_append] at e
      simp [body, e]
  cases hf : List.findSome? (body sp marker)
      (starts sp (trail ++ '\n' :: (h ++ '\n' :: (indent ++ (marker ++ (nl ++ r)))))) with
  | none => rw [hf] at this; simp at this
  | some p => exact ⟨p.1, p.2, rfl⟩

end Verif.Header
