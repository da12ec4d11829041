import Verif.Lemmas.Header

/-!
# C09: the header of a document
-/

set_option linter.unusedSimpArgs false
set_option linter.unusedVariables false

namespace Verif.Header

open Verif Verif.Header.Spec

/-- ASCII spaces. -/
def ascii (c : Char) : Bool := c = ' ' || c = '\n' || c = '\t' || c = '\r'

theorem ascii_spaces : Spaces ascii := ⟨by decide, by decide⟩

/-- C09. A text that starts with a header block: `load` returns exactly what follows a block
at the start of the text, so the block and the returned text make up the original; the entries are read from
the header text of that block. -/
theorem C09_block_and_rest (sp : Char → Bool) (hsp : Spaces sp) (s : Str)
    (h : ∃ b hd rest, s = b ++ rest ∧ IsBlock sp b hd) :
    ∃ b hd, IsBlock sp b hd ∧ s = b ++ load sp s true ∧ loadFromString sp s = (some (load sp s true), hd) := by
  obtain ⟨b, hd, rest, rfl, hb⟩ := h
  obtain ⟨hd', rest', hm⟩ := matchHeader_complete hsp b hd rest hb
  obtain ⟨b', e, hb'⟩ := matchHeader_sound hm
  have hl : loadFromString sp (b ++ rest) = (some rest', hd') := by simp [loadFromString, hm]
  have hr : load sp (b ++ rest) true = rest' := by simp [load, hl]
  exact ⟨b', hd', hb', by rw [hr, e], by rw [hl, hr]⟩

/-- C09. A text that does not start with a header block is returned unchanged, and all of it is read for
entries. -/
theorem C09_no_block (sp : Char → Bool) (s : Str) (h : ¬ ∃ b hd rest, s = b ++ rest ∧ IsBlock sp b hd) :
    load sp s true = s ∧ loadFromString sp s = (none, s) ∧ hasHeader sp s = false := by
  cases hm : matchHeader sp s with
  | none => simp [load, loadFromString, hasHeader, hm]
  | some p =>
    obtain ⟨hd, rest⟩ := p
    obtain ⟨b, e, hb⟩ := matchHeader_sound hm
    exact absurd ⟨b, hd, rest, e, hb⟩ h

/-- C09. If the header is not to be stripped, the text is returned unchanged. -/
theorem C09_keep (sp : Char → Bool) (s : Str) : load sp s false = s := by
  unfold load
  split <;> simp

/-- C09. The texts that are searched for headers are those that start with a block. -/
theorem C09_has_header (sp : Char → Bool) (hsp : Spaces sp) (s : Str) :
    hasHeader sp s = true ↔ ∃ b hd rest, s = b ++ rest ∧ IsBlock sp b hd := by
  constructor
  · intro h
    simp only [hasHeader, Option.isSome_iff_exists] at h
    obtain ⟨⟨hd, rest⟩, hm⟩ := h
    obtain ⟨b, e, hb⟩ := matchHeader_sound hm
    exact ⟨b, hd, rest, e, hb⟩
  · rintro ⟨b, hd, rest, rfl, hb⟩
    obtain ⟨hd', rest', hm⟩ := matchHeader_complete hsp b hd rest hb
    simp [hasHeader, hm]

/-- C09. A document written in the usual way: markers of `n` dashes around a header that has no such marker
on one of its lines, then any body whatsoever. The body is returned exactly, and the entries are
read from the header (up to spaces at its end). -/
theorem C09_usual_document (sp : Char → Bool) (hsp : Spaces sp) (n : Nat) (hn : 3 ≤ n) (c : Char) (hd text : Str)
    (hc : sp c = false) (hno : ¬ HasMarkerLine sp n (c :: hd)) :
    ∃ tail, (∀ x ∈ tail, sp x = true) ∧ ∃ hd', c :: hd = hd' ++ tail ∧
      loadFromString sp (List.replicate n '-' ++ ['\n'] ++ (c :: hd) ++ ['\n'] ++ List.replicate n '-' ++ ['\n'] ++
        text) = (some text, hd') := by
  have hds : ∀ x ∈ List.replicate n '-', x = '-' := by simp
  have hne : List.replicate n '-' ≠ [] := by intro h; have := congrArg List.length h; simp at this; omega
  generalize hD : List.replicate n '-' = ds at *
  have hlen : ds.length = n := by rw [← hD]; simp
  -- the search for the closing marker
  have key : ∀ h : Str, ¬ HasMarkerLine sp n h → ∃ h' tail, h = h' ++ tail ∧ (∀ x ∈ tail, sp x = true) ∧
      findClose sp ds (h ++ '\n' :: (ds ++ '\n' :: text)) = some (h', text) := by
    intro h
    induction h with
    | nil =>
      intro _
      refine ⟨[], [], rfl, by simp, ?_⟩
      have := closeAt_complete hsp hds hne [] ('\n' :: text) (by simp)
      simp only [List.append_nil, List.cons_append, List.nil_append, List.append_assoc] at this
      simp only [List.nil_append, findClose, this]
    | cons x h ih =>
      intro hno'
      have hno2 : ¬ HasMarkerLine sp n h := by
        rintro ⟨a, i, y, e, hi⟩
        exact hno' ⟨x :: a, i, y, by simp [e], hi⟩
      obtain ⟨h', tail, e1, e2, e3⟩ := ih hno2
      simp only [List.cons_append, findClose]
      cases hca : closeAt sp ds (x :: (h ++ '\n' :: (ds ++ '\n' :: text))) with
      | none => exact ⟨x :: h', tail, by simp [e1], e2, by simp [e3]⟩
      | some rest =>
        -- the marker is the last one
        have hx : x = '\n' := by
          by_cases hx : x = '\n'
          · exact hx
          · exfalso
            unfold closeAt at hca
            split at hca
            · rename_i heq; simp at heq; exact hx heq.1
            · simp at hca
        subst hx
        have hall : ∀ y ∈ h, sp y = true := by
          by_cases hsome : ∃ y ∈ h, sp y = false
          · exfalso
            -- the first character that is not a space
            have hsplit : ∃ i y t, h = i ++ y :: t ∧ (∀ z ∈ i, sp z = true) ∧ sp y = false := by
              obtain ⟨y0, hy0, hy1⟩ := hsome
              cases hdw : h.dropWhile sp with
              | nil =>
                have := takeWhile_append_dropWhile' sp h
                rw [hdw, List.append_nil] at this
                rw [← this] at hy0
                have := mem_takeWhile _ _ _ hy0
                rw [hy1] at this; simp at this
              | cons y t =>
                refine ⟨h.takeWhile sp, y, t, by rw [← hdw, takeWhile_append_dropWhile'], mem_takeWhile _ _, ?_⟩
                have := List.head?_dropWhile_not sp h
                rw [hdw] at this
                simpa using this
            obtain ⟨i, y, t, rfl, hi, hy⟩ := hsplit
            simp only [closeAt, List.append_assoc, List.cons_append] at hca
            rw [List.dropWhile_append_of_pos hi] at hca
            simp only [List.dropWhile_cons, hy, Bool.false_eq_true, if_false] at hca
            split at hca
            · rename_i hp
              have hp := List.isPrefixOf_iff_prefix.1 hp
              -- the dashes end before the newline
              have hp2 : ds <+: y :: t := by
                have : ds <+: (y :: t) ++ '\n' :: (ds ++ '\n' :: text) := by simpa using hp
                rcases List.prefix_or_prefix_of_prefix this (List.prefix_append _ _) with h1 | ⟨z, h1⟩
                · exact h1
                · cases z with
                  | nil => simp at h1; rw [h1]; exact List.prefix_rfl
                  | cons z zs =>
                    exfalso
                    obtain ⟨w, hw⟩ := this
                    rw [← h1] at hw
                    simp at hw
                    have : '\n' ∈ ds := by rw [← h1]; simp [hw.1]
                    have := hds _ this
                    simp at this
              obtain ⟨w, hw⟩ := hp2
              exact hno' ⟨[], i, w, by rw [hD]; simp [← hw], hi⟩
            · simp at hca
          · intro y hy
            cases hsy : sp y with
            | true => rfl
            | false => exact absurd ⟨y, hy, hsy⟩ hsome
        have := closeAt_complete hsp hds hne (h ++ ['\n']) ('\n' :: text)
          (by intro z hz; simp at hz; rcases hz with hz | rfl; exact hall z hz; exact hsp.nl)
        simp only [List.append_assoc, List.cons_append, List.nil_append] at this
        rw [hca] at this
        simp at this
        subst this
        refine ⟨[], '\n' :: h, rfl, ?_, rfl⟩
        intro z hz; simp at hz; rcases hz with rfl | hz
        · exact hsp.nl
        · exact hall z hz
  have hno2 : ¬ HasMarkerLine sp n hd := by
    rintro ⟨a, i, y, e, hi⟩
    exact hno ⟨c :: a, i, y, by simp [e], hi⟩
  obtain ⟨h', tail, e1, e2, e3⟩ := key hd hno2
  refine ⟨tail, e2, c :: h', by simp [e1], ?_⟩
  have hm : matchHeader sp (ds ++ '\n' :: (c :: (hd ++ '\n' :: (ds ++ '\n' :: text)))) = some (c :: h', text) := by
    unfold matchHeader
    have hdw : ∀ w : Str, (ds ++ w).dropWhile sp = ds ++ w := by
      intro w
      cases ds with
      | nil => exact absurd rfl hne
      | cons d m =>
        have := hds d (by simp)
        subst this
        simp [List.dropWhile_cons, hsp.dash]
    have hall : ∀ c ∈ ds, decide (c = '-') = true := by simpa using hds
    simp only [hdw]
    rw [List.takeWhile_append_of_pos hall, List.dropWhile_append_of_pos hall]
    simp only [List.takeWhile_cons, List.dropWhile_cons, show decide ('\n' = '-') = false from by decide,
      Bool.false_eq_true, if_false, List.append_nil]
    rw [if_neg (by omega)]
    simp [starts, hsp.nl, hc, body, e3]
  simp only [loadFromString, List.append_assoc, List.cons_append, List.nil_append, hm]

/-- A document with a header of two lines. -/
example : loadFromString ascii "\n---\ntitle: A\n  b - c\n ---\n\n--- text".toList =
    (some "\n--- text".toList, "title: A\n  b - c".toList) := by decide

/-- The text and spaces of the usual document meet the conditions. -/
example : ascii 't' = false ∧ ¬ HasMarkerLine ascii 3 "t: 1\nu: -- 2".toList := by
  refine ⟨by decide, ?_⟩
  rintro ⟨x, i, y, e, hi⟩
  have h1 : List.count '-' "t: 1\nu: -- 2".toList = 2 := by decide
  rw [e] at h1
  simp only [List.count_append, List.count_replicate_self] at h1
  omega

/-- A text whose markers differ has no header. -/
example : load ascii "----\na: 1\n---\nbody".toList true = "----\na: 1\n---\nbody".toList := by decide

/-- Finding: the closing marker may be the start of a longer line of dashes, whose other dashes then
start the body. -/
theorem C09_longer_closing_marker :
    load ascii "---\na: 1\n-----\nbody".toList true = "--\nbody".toList := by decide

/-- Finding: an empty header is no header. The markers stay in the body. -/
theorem C09_empty_header :
    load ascii "---\n---\nbody".toList true = "---\n---\nbody".toList := by decide

end Verif.Header
