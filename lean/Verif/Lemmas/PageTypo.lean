import Verif.Props.Typography
import Verif.Props.Paragraphs
import Verif.Lemmas.Parser
import Verif.Spec.Page

/-!
# Lemmas: typography, tags and the pieces of texts
-/

namespace Verif.Page

open Verif Verif.Typography Verif.Parser.Spec

variable {sp word : Char → Bool}

/-- Not an `@` before a letter or digit. -/
def NotHead (a b : Char) : Prop := a = '@' → b.isAlphanum = false

theorem noTag_neighbours (s : Str) : NoTag s ↔ Neighbours NotHead s := by
  induction s with
  | nil => exact ⟨fun _ => trivial, fun _ => Parser.NoTag.nil⟩
  | cons c s ih =>
    rw [Parser.noTag_cons_iff, neighbours_cons, ih]
    constructor
    · rintro ⟨h1, h2⟩
      refine ⟨?_, h2⟩
      intro d hd hc
      cases s with
      | nil => simp at hd
      | cons e s =>
        simp only [List.head?_cons, Option.some.injEq] at hd
        subst hd
        exact h1 hc e s rfl
    · rintro ⟨h1, h2⟩
      refine ⟨?_, h2⟩
      rintro hc d b rfl
      exact h1 d rfl hc

theorem dashSub_noTag {a : Str} {r : Char} (hd : Dash sp a r) (h1 : r ≠ '@') (h2 : r.isAlphanum = false) (s : Str)
    (h : Neighbours NotHead s) : Neighbours NotHead (dashSub sp a [r] r 0 s) :=
  dashSub_neighbours hd NotHead NotHead (fun _ _ h => absurd h h1) (fun _ _ _ _ _ => h2) (fun _ _ _ h _ _ => h) s h

theorem curl_cases (p n : Option Char) (c : Char) :
    curl sp word p n c = c ∨ curl sp word p n c ∈ "‘’“”".toList := by
  unfold curl
  repeat' split
  all_goals first
    | exact .inl rfl
    | exact .inr (by decide)
    | (left; assumption)

theorem curl_at (p n : Option Char) (c : Char) (h : curl sp word p n c = '@') : c = '@' := by
  rcases curl_cases (sp := sp) (word := word) p n c with h1 | h1
  · rw [← h1]; exact h
  · rw [h] at h1; exact absurd h1 (by decide)

theorem curl_alnum (p n : Option Char) (c : Char) (h : c.isAlphanum = false) :
    (curl sp word p n c).isAlphanum = false := by
  rcases curl_cases (sp := sp) (word := word) p n c with h1 | h1
  · rw [h1]; exact h
  · have : ∀ x ∈ "‘’“”".toList, x.isAlphanum = false := by decide
    exact this _ h1

theorem curlAll_noTag (p : Option Char) (s : Str) (h : Neighbours NotHead s) :
    Neighbours NotHead (curlAll sp word p s) := by
  induction s generalizing p with
  | nil => trivial
  | cons c s ih =>
    rw [neighbours_cons] at h
    simp only [curlAll]
    rw [neighbours_cons]
    refine ⟨?_, ih (some c) h.2⟩
    intro d hd hc
    cases s with
    | nil => simp [curlAll] at hd
    | cons e s =>
      simp only [curlAll, List.head?_cons, Option.some.injEq] at hd
      subst hd
      exact curl_alnum _ _ _ (h.1 e rfl (curl_at _ _ _ hc))

/-- The typography makes no tags. -/
theorem typo_noTag (hc : Classes sp word) (s : Str) (h : NoTag s) : NoTag (typo sp word s) := by
  rw [C45_quotes hc, noTag_neighbours]
  apply curlAll_noTag
  unfold Typography.en Typography.em
  exact dashSub_noTag (dash_en word hc) (by decide) (by decide) _
    (dashSub_noTag (dash_em word hc) (by decide) (by decide) _ ((noTag_neighbours s).1 h))

/-- Something other than spaces. -/
def Solid (sp : Char → Bool) (s : Str) : Prop := ∃ c ∈ s, sp c = false

theorem dashSub_solid {a : Str} {r : Char} (hd : Dash sp a r) (s : Str) (h : Solid sp s) :
    Solid sp (dashSub sp a [r] r 0 s) := by
  revert h
  apply dash_ind hd (fun s => Solid sp s → Solid sp (dashSub sp a [r] r 0 s))
  · rintro ⟨c, hc, _⟩; simp at hc
  · intro s n hn _ _
    obtain ⟨_, _, _, _, _, _, _, _, _, _, hpos, _⟩ := dashLen_some hd _ n hn
    have hs : s ≠ [] := by rintro rfl; rw [dashLen_nil hd] at hn; cases hn
    rw [dashSub_some s n hn hpos hs]
    exact ⟨r, by simp, hd.sp_dash⟩
  · rintro c s hn ih ⟨d, hd', hs⟩
    rw [dashSub_none c s hn]
    rcases List.mem_cons.1 hd' with rfl | hd'
    · exact ⟨d, by simp, hs⟩
    · obtain ⟨e, he, hs'⟩ := ih ⟨d, hd', hs⟩
      exact ⟨e, by simp [he], hs'⟩

theorem dashSub_ne_nil {a : Str} {r : Char} (hd : Dash sp a r) (s : Str) (h : s ≠ []) : dashSub sp a [r] r 0 s ≠ [] := by
  cases s with
  | nil => exact absurd rfl h
  | cons c s =>
    cases hn : dashLen sp a [r] (c :: s) with
    | none => rw [dashSub_none c s hn]; simp
    | some n =>
      obtain ⟨_, _, _, _, _, _, _, _, _, _, hpos, _⟩ := dashLen_some hd _ n hn
      rw [dashSub_some _ n hn hpos (by simp)]; simp

theorem curlAll_solid (hc : Classes sp word) (p : Option Char) (s : Str) (h : Solid sp s) : Solid sp (curlAll sp word p s) := by
  induction s generalizing p with
  | nil => obtain ⟨c, hc, _⟩ := h; simp at hc
  | cons c s ih =>
    obtain ⟨d, hd, hs⟩ := h
    simp only [curlAll]
    rcases List.mem_cons.1 hd with rfl | hd
    · refine ⟨_, List.mem_cons_self .., ?_⟩
      rcases curl_cases (sp := sp) (word := word) p s.head? d with h1 | h1
      · rw [h1]; exact hs
      · have : ∀ x ∈ "‘’“”".toList, x ∈ "-–—'\"‘’“”".toList := by decide
        exact (hc.special _ (this _ h1)).1
    · obtain ⟨e, he, hs'⟩ := ih (some c) ⟨d, hd, hs⟩
      exact ⟨e, by simp [he], hs'⟩

theorem typo_solid (hc : Classes sp word) (s : Str) (h : Solid sp s) : Solid sp (typo sp word s) := by
  rw [C45_quotes hc]
  unfold Typography.en Typography.em
  exact curlAll_solid hc _ _ (dashSub_solid (dash_en word hc) _ (dashSub_solid (dash_em word hc) _ h))

theorem typo_ne_nil (hc : Classes sp word) (s : Str) (h : s ≠ []) : typo sp word s ≠ [] := by
  rw [C45_quotes hc]
  have h1 := dashSub_ne_nil (dash_en word hc) _ (dashSub_ne_nil (dash_em word hc) s h)
  have h2 : ∀ t : Str, t ≠ [] → curlAll sp word none t ≠ [] := by
    intro t ht
    cases t with
    | nil => exact absurd rfl ht
    | cons c t => simp [curlAll]
  exact h2 _ h1

theorem typo_nil : typo sp word [] = [] := rfl

/-! ### Pieces -/

theorem curlAll_fixed (p : Option Char) (s : Str) :
    curlAll sp word p s = s ↔ ∀ u c v, s = u ++ c :: v → curl sp word (u.getLast?.or p) v.head? c = c := by
  induction s generalizing p with
  | nil => exact ⟨fun _ u c v h => by simp at h, fun _ => rfl⟩
  | cons d s ih =>
    simp only [curlAll, List.cons.injEq]
    rw [ih]
    constructor
    · rintro ⟨h1, h2⟩ u c v h
      cases u with
      | nil =>
        simp only [List.nil_append, List.cons.injEq] at h
        obtain ⟨rfl, rfl⟩ := h
        simpa using h1
      | cons e u =>
        simp only [List.cons_append, List.cons.injEq] at h
        obtain ⟨rfl, rfl⟩ := h
        have := h2 u c v rfl
        rw [List.getLast?_cons]
        cases hu : u.getLast? with
        | none => rw [hu] at this; simpa using this
        | some x => rw [hu] at this; simpa using this
    · intro h
      refine ⟨by simpa using h [] d s rfl, ?_⟩
      rintro u c v rfl
      have := h (d :: u) c v rfl
      rw [List.getLast?_cons] at this
      cases hu : u.getLast? with
      | none => rw [hu] at this; simpa using this
      | some x => rw [hu] at this; simpa using this

theorem curl_congr (p p' n n' : Option Char) (c : Char) (h1 : wordy word p = wordy word p') (h2 : solid sp p = solid sp p')
    (h3 : wordy word n = wordy word n') (h4 : solid sp n = solid sp n') : curl sp word p n c = curl sp word p' n' c := by
  unfold curl
  rw [h1, h2, h3, h4]

/-- Like the end of a text: nothing, or a space. -/
def Edge (sp : Char → Bool) (o : Option Char) : Prop := ∀ c, o = some c → sp c = true

theorem edge_class (hc : Classes sp word) (o : Option Char) (h : Edge sp o) :
    wordy word none = wordy word o ∧ solid sp none = solid sp o := by
  cases o with
  | none => exact ⟨rfl, rfl⟩
  | some c => simp [wordy, solid, hc.disjoint c (h c rfl), h c rfl]

theorem neighbours_prefix (R : Char → Char → Prop) (x y : Str) (h : Neighbours R (x ++ y)) : Neighbours R x := by
  induction x with
  | nil => trivial
  | cons c x ih =>
    rw [List.cons_append, neighbours_cons] at h
    rw [neighbours_cons]
    refine ⟨?_, ih h.2⟩
    intro d hd
    apply h.1
    cases x with
    | nil => simp at hd
    | cons e x => simpa using hd

theorem neighbours_suffix (R : Char → Char → Prop) (x y : Str) (h : Neighbours R (x ++ y)) : Neighbours R y := by
  induction x with
  | nil => exact h
  | cons c x ih =>
    rw [List.cons_append, neighbours_cons] at h
    exact ih h.2

/-- A part of a typeset text between spaces is typeset. -/
theorem typo_part (hc : Classes sp word) (x p y : Str) (h : typo sp word (x ++ p ++ y) = x ++ p ++ y)
    (hx : Edge sp x.getLast?) (hy : Edge sp y.head?) : typo sp word p = p := by
  have hset : Neighbours (Set sp) (x ++ p ++ y) := by rw [← h]; exact C45_set hc _
  have hp : Neighbours (Set sp) p := neighbours_suffix _ x _ (neighbours_prefix _ _ y hset)
  rw [C45_set_unchanged hc p hp, curlAll_fixed]
  rw [C45_set_unchanged hc _ hset, curlAll_fixed] at h
  rintro u c v rfl
  have := h (x ++ u) c (v ++ y) (by simp)
  obtain ⟨hx1, hx2⟩ := edge_class hc _ hx
  obtain ⟨hy1, hy2⟩ := edge_class hc _ hy
  have hl : wordy word (u.getLast?.or none) = wordy word ((x ++ u).getLast?.or none) ∧
      solid sp (u.getLast?.or none) = solid sp ((x ++ u).getLast?.or none) := by
    rw [List.getLast?_append]
    cases hu : u.getLast? with
    | none => simpa using ⟨hx1, hx2⟩
    | some d => simp
  have hr : wordy word v.head? = wordy word (v ++ y).head? ∧ solid sp v.head? = solid sp (v ++ y).head? := by
    cases v with
    | nil => simpa using ⟨hy1, hy2⟩
    | cons d v => simp
  exact (curl_congr _ _ _ _ c hl.1 hl.2 hr.1 hr.2).trans this

theorem blank_head {w : Str} (h : Para.Blank sp w) : w ≠ [] := by
  rintro rfl
  exact absurd h.2 (by decide)

theorem pieces_typo (hc : Classes sp word) (s : Str) (ps : List Str) (h : Para.Pieces sp s ps) (hs : typo sp word s = s) :
    ∀ p ∈ ps, typo sp word p = p := by
  induction h with
  | last h => intro p hp; simp only [List.mem_singleton] at hp; subst hp; exact hs
  | cons hp he hw hr h ih =>
    rename_i p w r ps
    have hwn := blank_head hw
    intro q hq
    rcases List.mem_cons.1 hq with rfl | hq
    · refine typo_part hc [] q (w ++ r) (by simpa using hs) (by intro c h; simp at h) ?_
      intro c hc'
      cases w with
      | nil => exact absurd rfl hwn
      | cons d w =>
        simp only [List.cons_append, List.head?_cons, Option.some.injEq] at hc'
        subst hc'
        exact hw.1 d (by simp)
    · refine ih ?_ q hq
      refine typo_part hc (p ++ w) r [] (by simpa using hs) ?_ (by intro c h; simp at h)
      intro c hc'
      rw [List.getLast?_append] at hc'
      cases hl : w.getLast? with
      | none => exact absurd (List.getLast?_eq_none_iff.1 hl) hwn
      | some d =>
        rw [hl] at hc'
        simp only [Option.some_or, Option.some.injEq] at hc'
        subst hc'
        exact hw.1 d (List.mem_of_getLast? hl)

theorem pieces_infix (s : Str) (ps : List Str) (h : Para.Pieces sp s ps) : ∀ p ∈ ps, p <:+: s := by
  induction h with
  | last h => intro p hp; simp only [List.mem_singleton] at hp; subst hp; exact List.infix_refl _
  | cons hp he hw hr h ih =>
    rename_i p w r ps
    intro q hq
    rcases List.mem_cons.1 hq with rfl | hq
    · exact ⟨[], w ++ r, by simp⟩
    · exact (ih q hq).trans ⟨p ++ w, [], by simp⟩

theorem noTag_infix (s t : Str) (h : NoTag s) (ht : t <:+: s) : NoTag t := by
  obtain ⟨x, y, rfl⟩ := ht
  intro a c b hb
  exact h (x ++ a) c (b ++ y) (by rw [hb]; simp)

end Verif.Page
