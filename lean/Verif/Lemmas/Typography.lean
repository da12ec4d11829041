import Verif.Spec.Typography

/-! # Lemmas about the typography -/

namespace Verif.Typography

open Verif

/-! ## Texts and spaces -/

theorem takeWhile_all (p : Char → Bool) (s : Str) : ∀ c ∈ s.takeWhile p, p c = true := by
  intro c hc
  induction s with
  | nil => simp at hc
  | cons d s ih =>
    rw [List.takeWhile_cons] at hc
    split at hc
    · rcases List.mem_cons.1 hc with rfl | hc
      · assumption
      · exact ih hc
    · simp at hc

theorem dropWhile_head (p : Char → Bool) (s : Str) (c : Char) (h : (s.dropWhile p).head? = some c) : p c = false := by
  induction s with
  | nil => simp at h
  | cons d s ih =>
    rw [List.dropWhile_cons] at h
    split at h
    · exact ih h
    · rename_i hd
      simp only [List.head?_cons, Option.some.injEq] at h
      subst h
      simpa using hd

theorem dropWhile_nil (p : Char → Bool) (s : Str) (h : ∀ c ∈ s, p c = true) : s.dropWhile p = [] := by
  induction s with
  | nil => rfl
  | cons d s ih =>
    rw [List.dropWhile_cons, if_pos (h d (by simp))]
    exact ih (fun c hc => h c (by simp [hc]))

theorem drop_takeWhile (p : Char → Bool) (s : Str) : s.drop (s.takeWhile p).length = s.dropWhile p := by
  induction s with
  | nil => rfl
  | cons d s ih =>
    rw [List.takeWhile_cons, List.dropWhile_cons]
    split
    · simpa using ih
    · rfl

theorem takeWhile_append_stop (p : Char → Bool) (x y : Str) (c : Char) (hc : p c = false) :
    (x ++ c :: y).takeWhile p = x.takeWhile p := by
  induction x with
  | nil => simp [hc]
  | cons d x ih => simp only [List.cons_append, List.takeWhile_cons, ih]

theorem dropWhile_append_stop (p : Char → Bool) (x y : Str) (c : Char) (hc : p c = false) :
    (x ++ c :: y).dropWhile p = x.dropWhile p ++ c :: y := by
  induction x with
  | nil => simp [hc]
  | cons d x ih =>
    simp only [List.cons_append, List.dropWhile_cons, ih]
    split <;> rfl

theorem dropWhile_le (p : Char → Bool) (s : Str) : (s.dropWhile p).length ≤ s.length := by
  induction s with
  | nil => simp
  | cons d s ih =>
    rw [List.dropWhile_cons]
    split
    · simp; omega
    · simp

theorem isPrefixOf_append_stop (a x y : Str) (c : Char) (hc : c ∉ a) : a.isPrefixOf (x ++ c :: y) = a.isPrefixOf x := by
  induction a generalizing x with
  | nil => simp
  | cons d a ih =>
    cases x with
    | nil =>
      simp only [List.nil_append, List.isPrefixOf]
      have : d ≠ c := by intro e; subst e; simp at hc
      simp [this]
    | cons e x =>
      simp only [List.cons_append, List.isPrefixOf]
      rw [ih x (by intro h; exact hc (by simp [h]))]

/-! ## Dashes -/

/-- The expression of a dash: hyphens or the dash, none of which is a space. -/
structure Dash (sp : Char → Bool) (a : Str) (r : Char) : Prop where
  hyphens : ∀ c ∈ a, c = '-'
  two : ∃ a', a = '-' :: '-' :: a'
  sp_hyphen : sp '-' = false
  sp_dash : sp r = false
  ne : r ≠ '-'

variable {sp : Char → Bool} {a : Str} {r : Char}

theorem altLen_some (s : Str) (n : Nat) (h : altLen a [r] s = some n) :
    (∃ t, s = a ++ t ∧ n = a.length) ∨ (∃ t, s = r :: t ∧ n = 1) := by
  unfold altLen at h
  split at h
  · rename_i hp
    obtain ⟨t, ht⟩ := List.isPrefixOf_iff_prefix.1 hp
    left
    exact ⟨t, ht.symm, by simpa using h.symm⟩
  · split at h
    · rename_i hp
      obtain ⟨t, ht⟩ := List.isPrefixOf_iff_prefix.1 hp
      right
      exact ⟨t, by simpa using ht.symm, by simpa using h.symm⟩
    · cases h

theorem altLen_none (s : Str) (h : altLen a [r] s = none) : (∀ t, s ≠ a ++ t) ∧ ∀ t, s ≠ r :: t := by
  unfold altLen at h
  split at h
  · cases h
  · rename_i hp
    split at h
    · cases h
    · rename_i hq
      refine ⟨?_, ?_⟩
      · rintro t rfl
        exact hp (List.isPrefixOf_iff_prefix.2 (List.prefix_append _ _))
      · rintro t rfl
        exact hq (by simp [List.isPrefixOf])

/-- What a match is: spaces, hyphens or the dash, and spaces up to the next character that is not one. -/
theorem dashLen_some (hd : Dash sp a r) (s : Str) (n : Nat) (h : dashLen sp a [r] s = some n) :
    ∃ ws d ws' rest, s = ws ++ d ++ ws' ++ rest ∧ (∀ c ∈ ws, sp c = true) ∧ (d = a ∨ d = [r]) ∧
      (∀ c ∈ ws', sp c = true) ∧ (∀ c, rest.head? = some c → sp c = false) ∧
      n = ws.length + d.length + ws'.length ∧ 0 < n ∧ s.drop n = rest := by
  unfold dashLen at h
  simp only at h
  cases ha : altLen a [r] (s.dropWhile sp) with
  | none => rw [ha] at h; cases h
  | some m =>
    rw [ha] at h
    simp only [Option.some.injEq] at h
    have hs : s = s.takeWhile sp ++ s.dropWhile sp := (List.takeWhile_append_dropWhile).symm
    have key : ∀ d t, s.dropWhile sp = d ++ t → m = d.length → (d = a ∨ d = [r]) → 
        ∃ ws d ws' rest, s = ws ++ d ++ ws' ++ rest ∧ (∀ c ∈ ws, sp c = true) ∧ (d = a ∨ d = [r]) ∧
      (∀ c ∈ ws', sp c = true) ∧ (∀ c, rest.head? = some c → sp c = false) ∧
      n = ws.length + d.length + ws'.length ∧ 0 < n ∧ s.drop n = rest := by
      intro d t hdt hm hda
      have hdrop : (s.dropWhile sp).drop m = t := by rw [hdt, hm, List.drop_left]
      rw [hdrop] at h
      have hs2 : s = s.takeWhile sp ++ d ++ t.takeWhile sp ++ t.dropWhile sp := by
        rw [List.append_assoc (s.takeWhile sp ++ d), List.takeWhile_append_dropWhile, List.append_assoc, ← hdt]
        exact hs
      have hpos : 0 < d.length := by
        rcases hda with rfl | rfl
        · obtain ⟨a', rfl⟩ := hd.two; simp
        · simp
      refine ⟨s.takeWhile sp, d, t.takeWhile sp, t.dropWhile sp, hs2, takeWhile_all sp s, hda, takeWhile_all sp t,
        fun c hc => dropWhile_head sp t c hc, by omega, by omega, ?_⟩
      have hlen : n = (s.takeWhile sp ++ d ++ t.takeWhile sp).length := by simp; omega
      generalize hA : s.takeWhile sp ++ d ++ t.takeWhile sp = A at hlen hs2
      rw [hlen, hs2, List.drop_left]
    rcases altLen_some _ m ha with ⟨t, h1, h2⟩ | ⟨t, h1, h2⟩
    · exact key a t h1 h2 (Or.inl rfl)
    · exact key [r] t (by simpa using h1) (by simpa using h2) (Or.inr rfl)

theorem dashSub_skip (k : Nat) (s : Str) : dashSub sp a [r] r k s = dashSub sp a [r] r 0 (s.drop k) := by
  induction s generalizing k with
  | nil => cases k <;> simp [dashSub]
  | cons c s ih =>
    cases k with
    | zero => rfl
    | succ k => simp only [dashSub, List.drop_succ_cons]; exact ih k

theorem dashSub_none (c : Char) (s : Str) (h : dashLen sp a [r] (c :: s) = none) :
    dashSub sp a [r] r 0 (c :: s) = c :: dashSub sp a [r] r 0 s := by
  simp only [dashSub, h]

theorem dashSub_some (s : Str) (n : Nat) (h : dashLen sp a [r] s = some n) (hn : 0 < n) (hs : s ≠ []) :
    dashSub sp a [r] r 0 s = r :: dashSub sp a [r] r 0 (s.drop n) := by
  cases s with
  | nil => exact absurd rfl hs
  | cons c s =>
    cases n with
    | zero => omega
    | succ n =>
      simp only [dashSub, h, List.drop_succ_cons]
      rw [dashSub_skip]

/-- Induction along the matches. -/
theorem dash_ind (hd : Dash sp a r) (P : Str → Prop) (h0 : P [])
    (h1 : ∀ s n, dashLen sp a [r] s = some n → P (s.drop n) → P s)
    (h2 : ∀ c s, dashLen sp a [r] (c :: s) = none → P s → P (c :: s)) : ∀ s, P s := by
  intro s
  generalize hl : s.length = l
  induction l using Nat.strongRecOn generalizing s with
  | _ l ih =>
    cases s with
    | nil => exact h0
    | cons c s =>
      cases h : dashLen sp a [r] (c :: s) with
      | none => exact h2 c s h (ih s.length (by simp at hl; omega) s rfl)
      | some n =>
        obtain ⟨ws, d, ws', rest, _, _, _, _, _, _, hn, hdr⟩ := dashLen_some hd _ n h
        refine h1 _ n h (ih ((c :: s).drop n).length ?_ _ rfl)
        simp only [List.length_drop, List.length_cons] at hl ⊢
        omega

theorem dashLen_nil (hd : Dash sp a r) : dashLen sp a [r] [] = none := by
  obtain ⟨a', rfl⟩ := hd.two
  simp [dashLen, altLen, List.isPrefixOf]

/-- A match at a text is a match with a space before it. -/
theorem dashLen_space (c : Char) (s : Str) (hc : sp c = true) (n : Nat) (h : dashLen sp a [r] s = some n) :
    dashLen sp a [r] (c :: s) ≠ none := by
  unfold dashLen at h ⊢
  simp only at h ⊢
  rw [List.dropWhile_cons, if_pos hc]
  cases ha : altLen a [r] (s.dropWhile sp) with
  | none => rw [ha] at h; cases h
  | some m => simp

theorem dashLen_dash (hd : Dash sp a r) (s : Str) : dashLen sp a [r] (r :: s) ≠ none := by
  unfold dashLen
  simp only [List.dropWhile_cons, hd.sp_dash, Bool.false_eq_true, if_false]
  cases ha : altLen a [r] (r :: s) with
  | none => exact absurd rfl ((altLen_none _ ha).2 s)
  | some m => simp

theorem dashLen_hyphens (hd : Dash sp a r) (s : Str) : dashLen sp a [r] (a ++ s) ≠ none := by
  unfold dashLen
  have : (a ++ s).dropWhile sp = a ++ s := by
    obtain ⟨a', rfl⟩ := hd.two
    simp [hd.sp_hyphen]
  simp only [this]
  cases ha : altLen a [r] (a ++ s) with
  | none => exact absurd rfl ((altLen_none _ ha).1 s)
  | some m => simp

/-- The first character of the result. -/
theorem dashSub_head (hd : Dash sp a r) (s : Str) : (dashSub sp a [r] r 0 s).head? =
    if dashLen sp a [r] s = none then s.head? else some r := by
  cases s with
  | nil => simp [dashSub, dashLen_nil hd]
  | cons c s =>
    cases h : dashLen sp a [r] (c :: s) with
    | none => rw [dashSub_none c s h]; simp
    | some n =>
      obtain ⟨_, _, _, _, _, _, _, _, _, _, hn, _⟩ := dashLen_some hd _ n h
      rw [dashSub_some _ n h hn (by simp)]
      simp

theorem neighbours_cons (R : Char → Char → Prop) (c : Char) (s : Str) :
    Neighbours R (c :: s) ↔ (∀ d, s.head? = some d → R c d) ∧ Neighbours R s := by
  cases s with
  | nil => simp [Neighbours]
  | cons d s => simp [Neighbours]

theorem neighbours_drop (R : Char → Char → Prop) (n : Nat) (s : Str) (h : Neighbours R s) : Neighbours R (s.drop n) := by
  induction n generalizing s with
  | zero => exact h
  | succ n ih =>
    cases s with
    | nil => exact h
    | cons c s => exact ih s ((neighbours_cons R c s).1 h).2

theorem neighbours_mid (R : Char → Char → Prop) (x y : Str) (c d : Char) (h : Neighbours R (x ++ c :: d :: y)) : R c d := by
  induction x with
  | nil => exact h.1
  | cons e x ih => exact ih ((neighbours_cons R e _).1 h).2

/-- The neighbours in the result. -/
theorem dashSub_neighbours (hd : Dash sp a r) (R0 R : Char → Char → Prop)
    (hrep : ∀ c, sp c = false → R r c)
    (hmatch : ∀ c s, dashLen sp a [r] (c :: s) = none → dashLen sp a [r] s ≠ none → R c r)
    (hold : ∀ c d s, R0 c d → dashLen sp a [r] (c :: d :: s) = none → dashLen sp a [r] (d :: s) = none → R c d)
    (s : Str) (h : Neighbours R0 s) : Neighbours R (dashSub sp a [r] r 0 s) := by
  revert h
  apply dash_ind hd (fun s => Neighbours R0 s → Neighbours R (dashSub sp a [r] r 0 s))
  · intro _; simp [dashSub, Neighbours]
  · intro s n hn ih h
    obtain ⟨_, _, _, rest, _, _, _, _, hrest, _, hpos, hdr⟩ := dashLen_some hd _ n hn
    have hs : s ≠ [] := by rintro rfl; rw [dashLen_nil hd] at hn; cases hn
    rw [dashSub_some s n hn hpos hs, neighbours_cons]
    refine ⟨?_, ih (neighbours_drop R0 n s h)⟩
    intro d hdd
    rw [dashSub_head hd] at hdd
    split at hdd
    · rw [hdr] at hdd; exact hrep d (hrest d hdd)
    · simp only [Option.some.injEq] at hdd; subst hdd; exact hrep _ hd.sp_dash
  · intro c s hn ih h
    rw [neighbours_cons] at h
    rw [dashSub_none c s hn, neighbours_cons]
    refine ⟨?_, ih h.2⟩
    intro d hdd
    rw [dashSub_head hd] at hdd
    split at hdd
    · rename_i hs
      cases s with
      | nil => simp at hdd
      | cons e s =>
        simp only [List.head?_cons, Option.some.injEq] at hdd
        subst hdd
        exact hold c e s (h.1 e rfl) hn hs
    · rename_i hs
      simp only [Option.some.injEq] at hdd
      subst hdd
      exact hmatch c s hn hs

/-- A text in which the dashes are set is not changed. -/
theorem dashSub_id (hd : Dash sp a r) (hr : isDash r = true) (s : Str) (h : Neighbours (Set sp) s) :
    dashSub sp a [r] r 0 s = s := by
  revert h
  apply dash_ind hd (fun s => Neighbours (Set sp) s → dashSub sp a [r] r 0 s = s)
  · intro _; simp [dashSub]
  · intro s n hn ih h
    obtain ⟨ws, d, ws', rest, hs, hws, hda, hws', hrest, hlen, hpos, hdr⟩ := dashLen_some hd _ n hn
    have hne : s ≠ [] := by rintro rfl; rw [dashLen_nil hd] at hn; cases hn
    have hdr' : d = [r] := by
      rcases hda with rfl | hda
      · exfalso
        obtain ⟨a', rfl⟩ := hd.two
        rw [hs] at h
        have := neighbours_mid (Set sp) ws (a' ++ ws' ++ rest) '-' '-' (by simpa using h)
        exact this.1 ⟨rfl, rfl⟩
      · exact hda
    subst hdr'
    have hws0 : ws = [] := by
      rcases List.eq_nil_or_concat ws with h0 | ⟨ws0, c, h0⟩
      · exact h0
      · exfalso
        subst h0
        rw [hs] at h
        have := neighbours_mid (Set sp) ws0 (ws' ++ rest) c r (by simpa using h)
        exact this.2.1 ⟨hws c (by simp), hr⟩
    subst hws0
    have hws0' : ws' = [] := by
      cases ws' with
      | nil => rfl
      | cons c ws' =>
        exfalso
        rw [hs] at h
        have := neighbours_mid (Set sp) [] (ws' ++ rest) r c (by simpa using h)
        exact this.2.2 ⟨hr, hws' c (by simp)⟩
    subst hws0'
    rw [dashSub_some s n hn hpos hne, ih (neighbours_drop _ n s h), hdr]
    simpa using hs.symm
  · intro c s hn ih h
    rw [dashSub_none c s hn, ih ((neighbours_cons _ c s).1 h).2]

/-- The dashes on either side of another character do not depend on each other. -/
theorem dashLen_split (c : Char) (hc : sp c = false) (hca : c ∉ a) (hcr : c ≠ r) (x y : Str) :
    dashLen sp a [r] (x ++ c :: y) = dashLen sp a [r] x := by
  unfold dashLen
  simp only [dropWhile_append_stop sp x y c hc, takeWhile_append_stop sp x y c hc]
  have halt : altLen a [r] (x.dropWhile sp ++ c :: y) = altLen a [r] (x.dropWhile sp) := by
    unfold altLen
    rw [isPrefixOf_append_stop a _ y c hca, isPrefixOf_append_stop [r] _ y c (by simpa using hcr)]
  rw [halt]
  cases ha : altLen a [r] (x.dropWhile sp) with
  | none => rfl
  | some n =>
    simp only
    have hle : n ≤ (x.dropWhile sp).length := by
      rcases altLen_some _ n ha with ⟨t, h1, h2⟩ | ⟨t, h1, h2⟩
      · rw [h1, h2]; simp
      · rw [h1, h2]; simp
    rw [List.drop_append_of_le_length hle, takeWhile_append_stop sp _ y c hc]

theorem dashSub_split (hd : Dash sp a r) (c : Char) (hc : sp c = false) (hca : c ≠ '-') (hcr : c ≠ r) (y : Str) :
    ∀ x, dashSub sp a [r] r 0 (x ++ c :: y) = dashSub sp a [r] r 0 x ++ c :: dashSub sp a [r] r 0 y := by
  have hca' : c ∉ a := fun h => hca (hd.hyphens c h)
  apply dash_ind hd
  · have hn : dashLen sp a [r] (c :: y) = none := by
      have := dashLen_split c hc hca' hcr [] y
      rw [dashLen_nil hd] at this
      simpa using this
    simpa [dashSub] using dashSub_none c y hn
  · intro s n hn ih
    obtain ⟨ws, d, ws', rest, hs, _, _, _, _, hlen, hpos, _⟩ := dashLen_some hd _ n hn
    have hne : s ≠ [] := by rintro rfl; rw [dashLen_nil hd] at hn; cases hn
    have hle : n ≤ s.length := by rw [hs]; simp; omega
    rw [dashSub_some s n hn hpos hne, dashSub_some (s ++ c :: y) n (by rw [dashLen_split c hc hca' hcr]; exact hn) hpos (by simp),
      List.drop_append_of_le_length hle, ih]
    rfl
  · intro e s hn ih
    rw [dashSub_none e s hn]
    have hn' : dashLen sp a [r] (e :: (s ++ c :: y)) = none := by
      have := dashLen_split c hc hca' hcr (e :: s) y
      rw [hn] at this
      simpa using this
    rw [List.cons_append, dashSub_none e _ hn', ih]
    rfl

/-- A dash with spaces around it. -/
theorem dashSub_block (hd : Dash sp a r) (ws d ws' : Str) (hws : ∀ c ∈ ws, sp c = true) (hda : d = a ∨ d = [r])
    (hws' : ∀ c ∈ ws', sp c = true) : dashSub sp a [r] r 0 (ws ++ d ++ ws') = [r] := by
  have hdne : ∃ e d', d = e :: d' ∧ sp e = false := by
    rcases hda with rfl | rfl
    · obtain ⟨a', rfl⟩ := hd.two; exact ⟨_, _, rfl, hd.sp_hyphen⟩
    · exact ⟨_, _, rfl, hd.sp_dash⟩
  have hdrop : (ws ++ d ++ ws').dropWhile sp = d ++ ws' := by
    obtain ⟨e, d', rfl, he⟩ := hdne
    rw [List.append_assoc, List.cons_append, dropWhile_append_stop sp ws _ e he]
    have : ws.dropWhile sp = [] := dropWhile_nil sp ws hws
    rw [this]; rfl
  have htake : (ws ++ d ++ ws').takeWhile sp = ws := by
    obtain ⟨e, d', rfl, he⟩ := hdne
    rw [List.append_assoc, List.cons_append, takeWhile_append_stop sp ws _ e he]
    have := List.takeWhile_append_dropWhile (p := sp) (l := ws)
    have h2 : ws.dropWhile sp = [] := dropWhile_nil sp ws hws
    rw [h2, List.append_nil] at this
    exact this
  have halt : altLen a [r] (d ++ ws') = some d.length := by
    unfold altLen
    rcases hda with rfl | rfl
    · rw [if_pos (List.isPrefixOf_iff_prefix.2 (List.prefix_append _ _))]
    · rw [if_neg]
      · simp [List.isPrefixOf]
      · intro h
        obtain ⟨a', rfl⟩ := hd.two
        simp only [List.cons_append, List.isPrefixOf, Bool.and_eq_true, beq_iff_eq] at h
        exact hd.ne h.1.symm
  have htw : ws'.takeWhile sp = ws' := by
    have := List.takeWhile_append_dropWhile (p := sp) (l := ws')
    have h2 : ws'.dropWhile sp = [] := dropWhile_nil sp ws' hws'
    rw [h2, List.append_nil] at this
    exact this
  have hlen : dashLen sp a [r] (ws ++ d ++ ws') = some (ws ++ d ++ ws').length := by
    unfold dashLen
    simp only [hdrop, htake, halt, List.drop_left, htw, List.length_append]
  obtain ⟨e, d', rfl, he⟩ := hdne
  rw [dashSub_some _ _ hlen (by simp; omega) (by simp), List.drop_length]
  simp [dashSub]

/-- A text without the dash is not changed. -/
theorem dashSub_absent (hd : Dash sp a r) (s : Str) (h : ∀ x y, s ≠ x ++ a ++ y) (hr : r ∉ s) :
    dashSub sp a [r] r 0 s = s := by
  revert h hr
  apply dash_ind hd (fun s => (∀ x y, s ≠ x ++ a ++ y) → r ∉ s → dashSub sp a [r] r 0 s = s)
  · intro _ _; simp [dashSub]
  · intro s n hn _ h hr
    exfalso
    obtain ⟨ws, d, ws', rest, hs, _, hda, _⟩ := dashLen_some hd _ n hn
    rcases hda with rfl | rfl
    · exact h ws (ws' ++ rest) (by rw [hs]; simp)
    · exact hr (by rw [hs]; simp)
  · intro c s hn ih h hr
    rw [dashSub_none c s hn, ih ?_ ?_]
    · intro x y e; exact h (c :: x) y (by rw [e]; rfl)
    · intro e; exact hr (by simp [e])

/-- Only spaces, hyphens and dashes are changed. -/
theorem dashSub_filter (hd : Dash sp a r) (hr : isDash r = true) (s : Str) :
    (dashSub sp a [r] r 0 s).filter (fun c => !touched sp c) = s.filter (fun c => !touched sp c) := by
  have htr : touched sp r = true := by
    unfold isDash at hr
    simp only [Bool.or_eq_true, decide_eq_true_eq] at hr
    rcases hr with rfl | rfl <;> simp [touched]
  revert s
  apply dash_ind hd
  · simp [dashSub]
  · intro s n hn ih
    obtain ⟨ws, d, ws', rest, hs, hws, hda, hws', _, _, hpos, hdr⟩ := dashLen_some hd _ n hn
    have hne : s ≠ [] := by rintro rfl; rw [dashLen_nil hd] at hn; cases hn
    rw [dashSub_some s n hn hpos hne, List.filter_cons, if_neg (by simp [htr]), ih, hdr]
    have h1 : ws.filter (fun c => !touched sp c) = [] := by
      rw [List.filter_eq_nil_iff]; intro c hc; simp [touched, hws c hc]
    have h2 : ws'.filter (fun c => !touched sp c) = [] := by
      rw [List.filter_eq_nil_iff]; intro c hc; simp [touched, hws' c hc]
    have h3 : d.filter (fun c => !touched sp c) = [] := by
      rw [List.filter_eq_nil_iff]
      intro c hc
      rcases hda with rfl | rfl
      · rw [hd.hyphens c hc]; simp [touched]
      · simp only [List.mem_singleton] at hc; subst hc; simp [htr]
    conv => rhs; rw [hs]
    simp [List.filter_append, h1, h2, h3]
  · intro c s hn ih
    rw [dashSub_none c s hn, List.filter_cons, List.filter_cons, ih]

/-! ## Quotes -/

/-- Replaces each character according to its neighbours. -/
def mapN (f : Option Char → Option Char → Char → Char) : Option Char → Str → Str
  | _, [] => []
  | p, c :: s => f p s.head? c :: mapN f (some c) s

theorem quoteSub_mapN (q rep : Char) (b a : Option Char → Bool) (p : Option Char) (s : Str) :
    quoteSub q rep b a p s = mapN (fun p n c => if c = q && b p && a n then rep else c) p s := by
  induction s generalizing p with
  | nil => rfl
  | cons c s ih => simp only [quoteSub, mapN, ih]

theorem curlAll_mapN (word : Char → Bool) (p : Option Char) (s : Str) :
    curlAll sp word p s = mapN (curl sp word) p s := by
  induction s generalizing p with
  | nil => rfl
  | cons c s ih => simp only [curlAll, mapN, ih]

/-- The classes of a character. -/
def cls (sp word : Char → Bool) (o : Option Char) : Option (Bool × Bool) := o.map fun c => (sp c, word c)

/-- Depends only on the classes of the neighbours. -/
def ByClass (sp word : Char → Bool) (f : Option Char → Option Char → Char → Char) : Prop :=
  ∀ p p' n n' c, cls sp word p = cls sp word p' → cls sp word n = cls sp word n' → f p n c = f p' n' c

/-- Keeps the classes of a character. -/
def KeepsClass (sp word : Char → Bool) (f : Option Char → Option Char → Char → Char) : Prop :=
  ∀ p n c, sp (f p n c) = sp c ∧ word (f p n c) = word c

theorem mapN_head (f : Option Char → Option Char → Char → Char) (p : Option Char) (word : Char → Bool) (s : Str)
    (hk : KeepsClass sp word f) : cls sp word (mapN f p s).head? = cls sp word s.head? := by
  cases s with
  | nil => rfl
  | cons c s => simp [mapN, cls, hk p s.head? c]

theorem mapN_comp (word : Char → Bool) (f g : Option Char → Option Char → Char → Char) (hg : ByClass sp word g)
    (hk : KeepsClass sp word f) (p p' : Option Char) (hp : cls sp word p' = cls sp word p) (s : Str) :
    mapN g p' (mapN f p s) = mapN (fun p n c => g p n (f p n c)) p s := by
  induction s generalizing p p' with
  | nil => rfl
  | cons c s ih =>
    simp only [mapN]
    rw [ih (some c) (some (f p s.head? c)) (by simp [cls, hk p s.head? c])]
    rw [hg p' p _ s.head? _ hp (mapN_head f (some c) word s hk)]

theorem mapN_congr (f g : Option Char → Option Char → Char → Char) (h : ∀ p n c, f p n c = g p n c) (p : Option Char)
    (s : Str) : mapN f p s = mapN g p s := by
  have : f = g := by funext p n c; exact h p n c
  rw [this]

theorem isW_wordy (word : Char → Bool) : isW word = wordy word := by
  funext o; cases o <;> rfl

theorem isS_solid : isS sp = solid sp := by
  funext o; cases o <;> rfl

theorem isW_cls (word : Char → Bool) (o o' : Option Char) (h : cls sp word o = cls sp word o') : isW word o = isW word o' := by
  cases o <;> cases o' <;> simp_all [cls, isW]

theorem isS_cls (word : Char → Bool) (o o' : Option Char) (h : cls sp word o = cls sp word o') : isS sp o = isS sp o' := by
  cases o <;> cases o' <;> simp_all [cls, isS]

theorem byClass_quote (word : Char → Bool) (q rep : Char) (b a : Option Char → Bool)
    (hb : ∀ o o', cls sp word o = cls sp word o' → b o = b o') (ha : ∀ o o', cls sp word o = cls sp word o' → a o = a o') :
    ByClass sp word (fun p n c => if c = q && b p && a n then rep else c) := by
  intro p p' n n' c hp hn
  simp only [hb p p' hp, ha n n' hn]

theorem keepsClass_quote (word : Char → Bool) (q rep : Char) (b a : Option Char → Bool)
    (hq : sp q = false ∧ word q = false) (hr : sp rep = false ∧ word rep = false) :
    KeepsClass sp word (fun p n c => if c = q && b p && a n then rep else c) := by
  intro p n c
  simp only
  split
  · rename_i h
    simp only [Bool.and_eq_true, decide_eq_true_eq] at h
    rw [h.1.1, hq.1, hq.2, hr.1, hr.2]
    exact ⟨rfl, rfl⟩
  · exact ⟨rfl, rfl⟩

theorem keepsClass_comp (word : Char → Bool) (f g : Option Char → Option Char → Char → Char) (hf : KeepsClass sp word f)
    (hg : KeepsClass sp word g) : KeepsClass sp word (fun p n c => g p n (f p n c)) := by
  intro p n c
  exact ⟨(hg p n _).1.trans (hf p n c).1, (hg p n _).2.trans (hf p n c).2⟩

theorem curl_keeps (word : Char → Bool) (hc : Classes sp word) : KeepsClass sp word (curl sp word) := by
  intro p n c
  have hq := hc.special
  unfold curl
  simp only [← isW_wordy, ← isS_solid]
  split
  · rename_i e
    subst e
    have h0 := hq '\'' (by decide)
    have h1 := hq '’' (by decide)
    have h2 := hq '‘' (by decide)
    split
    · simp [h0, h1]
    · split
      · simp [h0, h2]
      · split
        · simp [h0, h1]
        · simp
  · split
    · rename_i e
      subst e
      have h0 := hq '"' (by decide)
      have h1 := hq '”' (by decide)
      have h2 := hq '“' (by decide)
      split
      · simp [h0, h2]
      · split
        · simp [h0, h1]
        · simp
    · simp

theorem curl_byClass (word : Char → Bool) : ByClass sp word (curl sp word) := by
  intro p p' n n' c hp hn
  unfold curl
  simp only [← isW_wordy, ← isS_solid]
  rw [isW_cls word p p' hp, isW_cls word n n' hn, isS_cls word p p' hp, isS_cls word n n' hn]

theorem curl_idem (word : Char → Bool) (p n : Option Char) (c : Char) :
    curl sp word p n (curl sp word p n c) = curl sp word p n c := by
  unfold curl
  simp only [← isW_wordy, ← isS_solid]
  by_cases h1 : c = '\''
  · subst h1
    simp only [if_true]
    cases isW word p <;> cases isW word n <;> cases isS sp p <;> cases isS sp n <;> simp
  · by_cases h2 : c = '"'
    · subst h2
      simp only [if_true]
      cases isW word p <;> cases isW word n <;> cases isS sp p <;> cases isS sp n <;> simp
    · simp [h1, h2]

/-- The five substitutions of quotes are one. -/
theorem quotes_eq (word : Char → Bool) (hc : Classes sp word) (s : Str) :
    doubleEnd sp word (doubleStart sp word (singleEnd sp word (singleStart sp word (apostrophe word s)))) =
      curlAll sp word none s := by
  unfold doubleEnd doubleStart singleEnd singleStart apostrophe
  simp only [quoteSub_mapN]
  have hw := fun (o o' : Option Char) (h : cls sp word o = cls sp word o') => isW_cls word o o' h
  have hs := fun (o o' : Option Char) (h : cls sp word o = cls sp word o') => isS_cls word o o' h
  have hnw := fun (o o' : Option Char) (h : cls sp word o = cls sp word o') => congrArg Bool.not (isW_cls word o o' h)
  have q1 := hc.special '\'' (by decide)
  have q2 := hc.special '"' (by decide)
  have r1 := hc.special '’' (by decide)
  have r2 := hc.special '‘' (by decide)
  have r3 := hc.special '“' (by decide)
  have r4 := hc.special '”' (by decide)
  have k1 := keepsClass_quote word '\'' '’' (isW word) (isW word) q1 r1
  have k2 := keepsClass_quote word '\'' '‘' (fun o => !isW word o) (isS sp) q1 r2
  have k3 := keepsClass_quote word '\'' '’' (isS sp) (fun o => !isW word o) q1 r1
  have k4 := keepsClass_quote word '"' '“' (fun o => !isW word o) (isS sp) q2 r3
  rw [mapN_comp word _ _ (byClass_quote word '\'' '‘' _ _ hnw hs) k1 none none rfl]
  rw [mapN_comp word _ _ (byClass_quote word '\'' '’' _ _ hs hnw) (keepsClass_comp word _ _ k1 k2) none none rfl]
  rw [mapN_comp word _ _ (byClass_quote word '"' '“' _ _ hnw hs)
    (keepsClass_comp word _ _ (keepsClass_comp word _ _ k1 k2) k3) none none rfl]
  rw [mapN_comp word _ _ (byClass_quote word '"' '”' _ _ hs hnw)
    (keepsClass_comp word _ _ (keepsClass_comp word _ _ (keepsClass_comp word _ _ k1 k2) k3) k4) none none rfl]
  rw [curlAll_mapN]
  apply mapN_congr
  intro p n c
  unfold curl
  simp only [← isW_wordy, ← isS_solid]
  by_cases h1 : c = '\''
  · subst h1
    simp only
    cases isW word p <;> cases isW word n <;> cases isS sp p <;> cases isS sp n <;> simp
  · by_cases h2 : c = '"'
    · subst h2
      simp only
      cases isW word p <;> cases isW word n <;> cases isS sp p <;> cases isS sp n <;> simp
    · simp [h1, h2]

/-- Replacing quotes leaves the neighbours of dashes alone. -/
theorem curlAll_set (word : Char → Bool) (hc : Classes sp word) (p : Option Char) (s : Str)
    (h : Neighbours (Set sp) s) : Neighbours (Set sp) (curlAll sp word p s) := by
  have hcurl : ∀ p n c, (curl sp word p n c = '-' → c = '-') ∧ (isDash (curl sp word p n c) = true → isDash c = true) := by
    intro p n c
    unfold curl
    simp only [← isW_wordy, ← isS_solid]
    by_cases h1 : c = '\''
    · subst h1
      simp only [if_true]
      cases isW word p <;> cases isW word n <;> cases isS sp p <;> cases isS sp n <;> decide
    · by_cases h2 : c = '"'
      · subst h2
        simp only [if_true]
        cases isW word p <;> cases isW word n <;> cases isS sp p <;> cases isS sp n <;> decide
      · simp [h1, h2]
  induction s generalizing p with
  | nil => exact h
  | cons c s ih =>
    rw [neighbours_cons] at h
    simp only [curlAll]
    rw [neighbours_cons]
    refine ⟨?_, ih (some c) h.2⟩
    intro d hd
    cases s with
    | nil => simp [curlAll] at hd
    | cons e s =>
      simp only [curlAll, List.head?_cons, Option.some.injEq] at hd
      subst hd
      obtain ⟨h1, h2, h3⟩ := h.1 e rfl
      have hk := curl_keeps word hc
      refine ⟨?_, ?_, ?_⟩
      · rintro ⟨a1, a2⟩
        exact h1 ⟨(hcurl _ _ _).1 a1, (hcurl _ _ _).1 a2⟩
      · rintro ⟨a1, a2⟩
        rw [(hk _ _ _).1] at a1
        exact h2 ⟨a1, (hcurl _ _ _).2 a2⟩
      · rintro ⟨a1, a2⟩
        rw [(hk _ _ _).1] at a2
        exact h3 ⟨(hcurl _ _ _).2 a1, a2⟩

theorem curlAll_idem (word : Char → Bool) (hc : Classes sp word) (s : Str) :
    curlAll sp word none (curlAll sp word none s) = curlAll sp word none s := by
  simp only [curlAll_mapN]
  rw [mapN_comp word _ _ (curl_byClass word) (curl_keeps word hc) none none rfl]
  exact mapN_congr _ _ (curl_idem word) none s

theorem curlAll_filter (word : Char → Bool) (p : Option Char) (s : Str) :
    (curlAll sp word p s).filter (fun c => !touched sp c) = s.filter (fun c => !touched sp c) := by
  have key : ∀ p n c, curl sp word p n c = c ∨ (touched sp (curl sp word p n c) = true ∧ touched sp c = true) := by
    intro p n c
    unfold curl
    simp only [← isW_wordy, ← isS_solid]
    by_cases h1 : c = '\''
    · subst h1
      simp only [if_true]
      cases isW word p <;> cases isW word n <;> cases isS sp p <;> cases isS sp n <;> simp [touched]
    · by_cases h2 : c = '"'
      · subst h2
        simp only [if_true]
        cases isW word p <;> cases isW word n <;> cases isS sp p <;> cases isS sp n <;> simp [touched]
      · simp [h1, h2]
  induction s generalizing p with
  | nil => rfl
  | cons c s ih =>
    simp only [curlAll, List.filter_cons, ih]
    rcases key p s.head? c with e | ⟨e1, e2⟩
    · rw [e]
    · simp [e1, e2]

/-! ## Both -/

theorem dash_em (word : Char → Bool) (hc : Classes sp word) : Dash sp "---".toList '—' :=
  ⟨by decide, ⟨"-".toList, rfl⟩, (hc.special '-' (by decide)).1, (hc.special '—' (by decide)).1, by decide⟩

theorem dash_en (word : Char → Bool) (hc : Classes sp word) : Dash sp "--".toList '–' :=
  ⟨by decide, ⟨[], rfl⟩, (hc.special '-' (by decide)).1, (hc.special '–' (by decide)).1, by decide⟩

/-- After the two substitutions of dashes all dashes are set. -/
theorem set_dashes (word : Char → Bool) (hc : Classes sp word) (s : Str) : Neighbours (Set sp) (en sp (em sp s)) := by
  have d1 := dash_em word hc
  have d2 := dash_en word hc
  have hem : Neighbours (fun a b => ¬ (sp a = true ∧ b = '—') ∧ ¬ (a = '—' ∧ sp b = true)) (em sp s) := by
    refine dashSub_neighbours d1 (fun _ _ => True) _ ?_ ?_ ?_ s ?_
    · intro c hs
      exact ⟨fun h => by rw [d1.sp_dash] at h; simp at h, fun h => by rw [hs] at h; simp at h⟩
    · intro c s h1 h2
      refine ⟨?_, ?_⟩
      · rintro ⟨h, _⟩
        cases hl : dashLen sp "---".toList ['—'] s with
        | none => exact h2 hl
        | some n => exact dashLen_space c s h n hl h1
      · rintro ⟨_, h⟩
        rw [d1.sp_dash] at h; simp at h
    · intro c d s _ h1 h2
      refine ⟨?_, ?_⟩
      · rintro ⟨_, rfl⟩; exact dashLen_dash d1 s h2
      · rintro ⟨rfl, _⟩; exact dashLen_dash d1 _ h1
    · clear hc d1 d2
      induction s with
      | nil => trivial
      | cons c s ih => rw [neighbours_cons]; exact ⟨fun _ _ => trivial, ih⟩
  refine dashSub_neighbours d2 _ _ ?_ ?_ ?_ (em sp s) hem
  · intro c hs
    refine ⟨by simp, fun h => by rw [d2.sp_dash] at h; simp at h, fun h => by rw [hs] at h; simp at h⟩
  · intro c s h1 h2
    refine ⟨by simp, ?_, ?_⟩
    · rintro ⟨h, _⟩
      cases hl : dashLen sp "--".toList ['–'] s with
      | none => exact h2 hl
      | some n => exact dashLen_space c s h n hl h1
    · rintro ⟨_, h⟩
      rw [d2.sp_dash] at h; simp at h
  · intro c d s h0 h1 h2
    refine ⟨?_, ?_, ?_⟩
    · rintro ⟨rfl, rfl⟩
      exact dashLen_hyphens d2 s h1
    · rintro ⟨hs, hd⟩
      unfold isDash at hd
      simp only [Bool.or_eq_true, decide_eq_true_eq] at hd
      rcases hd with rfl | rfl
      · exact h0.1 ⟨hs, rfl⟩
      · exact dashLen_dash d2 s h2
    · rintro ⟨hd, hs⟩
      unfold isDash at hd
      simp only [Bool.or_eq_true, decide_eq_true_eq] at hd
      rcases hd with rfl | rfl
      · exact h0.2 ⟨rfl, hs⟩
      · exact dashLen_dash d2 _ h1

end Verif.Typography
