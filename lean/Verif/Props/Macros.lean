import Verif.Spec.Macros
import Verif.Lemmas.Strings

/-!
# C25: macros
-/

namespace Verif.Macros

open Verif

variable (J : Objs) (isWord sp : Char → Bool) (dicts : List (Dict Str J.O))

/-! ### Text without macros -/

theorem subn_text (t s : Str) (ht : '@' ∉ t) :
    subn J isWord sp dicts (t ++ s) 0 = (t ++ (subn J isWord sp dicts s 0).1, (subn J isWord sp dicts s 0).2) := by
  induction t with
  | nil => rfl
  | cons c t ih =>
    have hc : c ≠ '@' := by rintro rfl; simp at ht
    have hm : macroAt isWord sp (c :: (t ++ s)) = none := by
      unfold macroAt
      split
      · rename_i h; simp only [List.cons.injEq] at h; exact absurd h.1 hc
      · rfl
    rw [List.cons_append, subn, hm]
    dsimp only
    rw [ih (by intro h; exact ht (by simp [h]))]
    rfl

/-- C25. A text without `@` is left as it is. -/
theorem C25_plain (s : Str) (h : '@' ∉ s) (fuel : Nat) : replaceMacros J isWord sp dicts (fuel + 1) s = some s := by
  have := subn_text J isWord sp dicts s [] h
  simp only [List.append_nil, subn] at this
  simp [replaceMacros, this, repeatSub]

/-! ### Termination -/

theorem braces_prefix (s : Str) : braces sp s <+: s := by
  unfold braces
  split
  · rename_i t
    split
    · rename_i r h
      have : t = t.takeWhile sp ++ '}' :: r := by rw [← h, List.takeWhile_append_dropWhile]
      refine ⟨r, ?_⟩
      conv => rhs; rw [this]
      simp
    · simp
  · simp

theorem macroAt_prefix (s m b : Str) (h : macroAt isWord sp s = some (m, b)) : m ++ b <+: s ∧ m ≠ [] := by
  unfold macroAt at h
  split at h
  · rename_i t
    dsimp only at h
    split at h
    · simp at h
    · simp only [Option.some.injEq, Prod.mk.injEq] at h
      obtain ⟨rfl, rfl⟩ := h
      refine ⟨?_, by simp⟩
      obtain ⟨r, hr⟩ := braces_prefix sp (t.dropWhile (nameChar isWord))
      refine ⟨r, ?_⟩
      rw [List.append_assoc, hr, List.cons_append, List.takeWhile_append_dropWhile]
  · simp at h

theorem macroAt_at (s m b : Str) (h : macroAt isWord sp s = some (m, b)) : m.head? = some '@' := by
  unfold macroAt at h
  split at h
  · dsimp only at h
    split at h
    · simp at h
    · simp only [Option.some.injEq, Prod.mk.injEq] at h
      rw [← h.1]; rfl
  · simp at h

theorem follow_suffix (obj : J.O) (ps : List Str) : (follow J dicts obj ps).2 <:+ ps := by
  induction ps generalizing obj with
  | nil => simp [follow]
  | cons p ps ih =>
    unfold follow
    split
    · exact (ih _).trans (List.suffix_cons _ _)
    · split
      · exact (ih _).trans (List.suffix_cons _ _)
      · exact List.suffix_refl _

theorem count_flatMap_dot (ps : List Str) : (ps.flatMap ('.' :: ·)).count '@' = (ps.map (List.count '@')).sum := by
  induction ps with
  | nil => rfl
  | cons p ps ih =>
    rw [List.flatMap_cons, List.count_append, ih, List.map_cons, List.sum_cons, List.count_cons_of_ne (by decide)]

theorem count_join_dot (ps : List Str) : (join ['.'] ps).count '@' = (ps.map (List.count '@')).sum := by
  induction ps with
  | nil => rfl
  | cons p ps ih =>
    cases ps with
    | nil => simp [join]
    | cons q ps =>
      rw [join_cons _ _ _ (by simp), List.count_append, List.count_append, ih, List.map_cons (l := q :: ps), List.sum_cons]
      have : List.count '@' ['.'] = 0 := by decide
      omega

theorem le_sum (rest : List Str) (a : Str) (ha : a ∈ rest) : List.count '@' a ≤ (rest.map (List.count '@')).sum := by
  induction rest with
  | nil => simp at ha
  | cons q rest ih =>
    rw [List.map_cons, List.sum_cons]
    rcases List.mem_cons.1 ha with rfl | ha
    · omega
    · have := ih ha; omega

theorem sum_suffix (ps qs : List Str) (h : ps <:+ qs) : (ps.map (List.count '@')).sum ≤ (qs.map (List.count '@')).sum := by
  obtain ⟨r, rfl⟩ := h
  rw [List.map_append, List.sum_append]; omega

theorem substitute_count (hv : ∀ o, '@' ∉ J.str o) (m b : Str) :
    (substitute J dicts m (m ++ b)).count '@' ≤ (m ++ b).count '@' := by
  unfold substitute
  have hs := follow_suffix J dicts J.nothing (split ['.'] m)
  cases hf : follow J dicts J.nothing (split ['.'] m) with
  | mk obj ps =>
    rw [hf] at hs
    dsimp only at hs ⊢
    split
    · exact Nat.le_refl _
    · rw [List.count_append, List.count_eq_zero_of_not_mem (hv obj), count_flatMap_dot, List.count_append]
      have h1 := sum_suffix _ _ hs
      have h2 := count_join_dot (split ['.'] m)
      rw [join_split _ _ (by simp)] at h2
      omega

theorem count_drop_le (s : Str) (n : Nat) : (s.drop n).count '@' ≤ s.count '@' :=
  (List.drop_sublist n s).count_le '@'

theorem subn_count (hv : ∀ o, '@' ∉ J.str o) (s : Str) (k : Nat) :
    (subn J isWord sp dicts s k).1.count '@' ≤ (s.drop k).count '@' ∧
    (subn J isWord sp dicts s k).2 ≤ (s.drop k).count '@' := by
  induction s generalizing k with
  | nil => simp [subn]
  | cons c t ih =>
    cases k with
    | succ k => simpa [subn] using ih k
    | zero =>
      rw [subn, List.drop_zero]
      cases hm : macroAt isWord sp (c :: t) with
      | none =>
        dsimp only
        have := ih 0
        rw [List.drop_zero] at this
        rw [List.count_cons, List.count_cons]
        omega
      | some mb =>
        obtain ⟨m, b⟩ := mb
        dsimp only
        obtain ⟨⟨r, hr⟩, hne⟩ := macroAt_prefix isWord sp (c :: t) m b hm
        have hhead := macroAt_at isWord sp (c :: t) m b hm
        have h1 := ih ((m ++ b).length - 1)
        have hlen : (m ++ b).length ≥ 1 := by
          cases m with
          | nil => exact absurd rfl hne
          | cons x m => simp
        have hdrop : t.drop ((m ++ b).length - 1) = r := by
          have : (c :: t).drop (m ++ b).length = r := by rw [← hr, List.drop_left]
          rw [show (m ++ b).length = ((m ++ b).length - 1) + 1 by omega, List.drop_succ_cons] at this
          exact this
        rw [hdrop] at h1
        have h2 := substitute_count J dicts hv m b
        have h3 : (m ++ b).count '@' ≥ 1 := by
          cases m with
          | nil => exact absurd rfl hne
          | cons x m =>
            simp only [List.head?_cons, Option.some.injEq] at hhead
            subst hhead
            simp
        rw [← hr, List.count_append, List.count_append (l₁ := m ++ b)]
        omega

theorem repeatSub_isSome (hv : ∀ o, '@' ∉ J.str o) (C : Nat) (fuel : Nat) (s : Str) (num last : Nat) (hs : s.count '@' ≤ C)
    (hn : num ≤ C) (hf : C - last < fuel) : ∃ r, repeatSub J isWord sp dicts fuel s num last = some r := by
  induction fuel generalizing s num last with
  | zero => omega
  | succ fuel ih =>
    unfold repeatSub
    split
    · rename_i h
      have hc := subn_count J isWord sp dicts hv s 0
      rw [List.drop_zero] at hc
      exact ih _ _ _ (by omega) (by omega) (by omega)
    · exact ⟨s, rfl⟩

theorem repeatSub_mono (fuel fuel' : Nat) (h : fuel ≤ fuel') (s r : Str) (num last : Nat)
    (hr : repeatSub J isWord sp dicts fuel s num last = some r) : repeatSub J isWord sp dicts fuel' s num last = some r := by
  induction fuel generalizing fuel' s num last with
  | zero => simp [repeatSub] at hr
  | succ fuel ih =>
    obtain ⟨f', rfl⟩ : ∃ f', fuel' = f' + 1 := ⟨fuel' - 1, by omega⟩
    unfold repeatSub at hr ⊢
    split
    · rename_i hc
      rw [if_pos hc] at hr
      exact ih f' (by omega) _ _ _ hr
    · rename_i hc
      rw [if_neg hc] at hr; exact hr

/-- C25. Substitution ends for every text if the values have no `@` in them. Partial: with recursive macros it need
not end, see `C25_does_not_end`. -/
theorem C25_ends_partial (hv : ∀ o, '@' ∉ J.str o) (s : Str) :
    ∃ fuel r, ∀ fuel', fuel ≤ fuel' → replaceMacros J isWord sp dicts fuel' s = some r := by
  have hc := subn_count J isWord sp dicts hv s 0
  rw [List.drop_zero] at hc
  unfold replaceMacros
  obtain ⟨r, hr⟩ := repeatSub_isSome J isWord sp dicts hv (s.count '@') (s.count '@' + 1)
    (subn J isWord sp dicts s 0).1 (subn J isWord sp dicts s 0).2 0 (by omega) (by omega) (by omega)
  exact ⟨_, r, fun fuel' hf => repeatSub_mono J isWord sp dicts _ fuel' hf _ _ _ _ hr⟩

/-! ### What is substituted -/

theorem subn_skip (x s : Str) : subn J isWord sp dicts (x ++ s) x.length = subn J isWord sp dicts s 0 := by
  induction x with
  | nil => rfl
  | cons c x ih => simpa [subn] using ih

theorem takeWhile_stop {α : Type} (p : α → Bool) (l r : List α) (hl : ∀ a ∈ l, p a = true) (hr : ∀ a ∈ r.head?, p a = false) :
    (l ++ r).takeWhile p = l ∧ (l ++ r).dropWhile p = r := by
  induction l with
  | nil =>
    cases r with
    | nil => simp
    | cons a r =>
      have := hr a (by simp)
      simp [this]
  | cons a l ih =>
    have h1 := hl a (by simp)
    have h2 := ih fun x hx => hl x (by simp [hx])
    simp [h1, h2]

/-- The characters that macros are made with are no word characters, and a brace is no space. -/
structure Chars : Prop where
  at_ : isWord '@' = false
  brace : isWord '{' = false
  close : sp '}' = false

theorem macroAt_part (hch : Chars isWord sp) (name : Str) (b : Option Str) (ps : List Part)
    (hg : Good isWord sp (.mac name b :: ps)) :
    macroAt isWord sp (src (.mac name b :: ps)) = some ('@' :: name, (Part.mac name b).src.drop (name.length + 1)) := by
  obtain ⟨hne, hname, hb, hrest⟩ := hg
  have hn : ∀ c ∈ name, nameChar isWord c = true := by
    intro c hc
    rcases hname c hc with h | h <;> simp [nameChar, h]
  cases b with
  | none =>
    have hs : src (.mac name none :: ps) = '@' :: (name ++ src ps) := by simp [src, Part.src]
    have hstop : (∀ c ∈ (src ps).head?, nameChar isWord c = false) ∧ braces sp (src ps) = [] := by
      rcases hb with rfl | ⟨c, t, ps', rfl, h1, h2, h3⟩
      · simp [src, braces]
      · have : src (.text (c :: t) :: ps') = c :: (t ++ src ps') := by simp [src, Part.src]
        rw [this]
        constructor
        · intro x hx
          simp only [List.head?_cons, Option.mem_some_iff] at hx
          subst hx
          simp [nameChar, h1, h2]
        · unfold braces
          split
          · rename_i h
            simp only [List.cons.injEq] at h
            rcases h3 with h3 | ⟨w, d, t', rfl, g1, g2, g3⟩
            · exact absurd h.1 h3
            · obtain ⟨_, hd⟩ := takeWhile_stop sp w (d :: (t' ++ src ps')) g1 (by simpa using g2)
              rw [← h.2, List.append_assoc, List.cons_append, hd]
              split
              · rename_i h'; simp only [List.cons.injEq] at h'; exact absurd h'.1 g3
              · rfl
          · rfl
    obtain ⟨ht, hd⟩ := takeWhile_stop (nameChar isWord) name (src ps) hn hstop.1
    rw [hs, macroAt, ht, hd, if_neg hne, hstop.2]
    simp [Part.src]
  | some b =>
    have hs : src (.mac name (some b) :: ps) = '@' :: (name ++ '{' :: (b ++ '}' :: src ps)) := by simp [src, Part.src]
    obtain ⟨ht, hd⟩ := takeWhile_stop (nameChar isWord) name ('{' :: (b ++ '}' :: src ps)) hn (by
      intro x hx
      simp only [List.head?_cons, Option.mem_some_iff] at hx
      subst hx
      simp [nameChar, hch.brace])
    obtain ⟨ht', hd'⟩ := takeWhile_stop sp b ('}' :: src ps) hb (by
      intro x hx
      simp only [List.head?_cons, Option.mem_some_iff] at hx
      subst hx
      exact hch.close)
    rw [hs, macroAt, ht, hd, if_neg hne, braces, hd', ht']
    simp [Part.src]

/-- The number of macros. -/
def nmacs : List Part → Nat
  | [] => 0
  | .text _ :: ps => nmacs ps
  | .mac _ _ :: ps => nmacs ps + 1

theorem split_head_at (name first : Str) (rest : List Str) (h : split ['.'] ('@' :: name) = first :: rest) :
    ∃ x, first = '@' :: x := by
  have hj := join_split ['.'] ('@' :: name) (by simp)
  rw [h] at hj
  cases first with
  | nil =>
    cases rest with
    | nil => simp [join] at hj
    | cons q rest => rw [join_cons _ _ _ (by simp)] at hj; simp at hj
  | cons c x =>
    refine ⟨x, ?_⟩
    cases rest with
    | nil => simp [join] at hj; rw [hj.1]
    | cons q rest => rw [join_cons _ _ _ (by simp)] at hj; simp at hj; rw [hj.1]

/-- `None` is `None` and has no attribute whose name begins with `@`. -/
structure NoneOk : Prop where
  isNone : J.isNone J.nothing = true
  attr : ∀ x, J.attr J.nothing ('@' :: x) = none

theorem follow_path (o o' : J.O) (as rest : List Str) (hp : Path J o as o') (hn : J.isNone o' = false)
    (hr : ∀ a ∈ rest.head?, J.attr o' a = none) : follow J dicts o (as ++ rest) = (o', rest) := by
  induction hp with
  | nil o =>
    cases rest with
    | nil => rfl
    | cons a rest => simp [follow, hn, hr a (by simp)]
  | cons h ha hp ih => simp [follow, h, ha, ih hn hr]

theorem lookup_first (first : Str) (o : J.O) (ds ds' : List (Dict Str J.O)) (d : Dict Str J.O)
    (h1 : ∀ d' ∈ ds, d'.get? first = none) (h2 : d.get? first = some o) : lookup J (ds ++ d :: ds') first = some o := by
  unfold lookup
  induction ds with
  | nil => simp [h2]
  | cons a ds ih =>
    rw [List.cons_append, List.findSome?_cons, h1 a (by simp)]
    exact ih fun d' hd' => h1 d' (by simp [hd'])

theorem pieces_split {s : Str} {l : List Str} (h : Pieces s l) : split ['.'] s = l := by
  induction h with
  | last s hs => exact split_char_none _ _ hs
  | piece s r l hs _ ih => rw [split_char _ _ _ hs, ih]

theorem pieces_exist (s : Str) : ∃ l, Pieces s l := by
  induction s with
  | nil => exact ⟨[[]], .last [] (by simp)⟩
  | cons c t ih =>
    obtain ⟨l, h⟩ := ih
    by_cases hc : c = '.'
    · subst hc
      exact ⟨_, .piece [] t l (by simp) h⟩
    · have hn : ∀ s : Str, '.' ∉ s → '.' ∉ c :: s := by
        intro s hs hm
        rcases List.mem_cons.1 hm with e | hm
        · exact hc e.symm
        · exact hs hm
      cases h with
      | last s hs => exact ⟨_, .last (c :: t) (hn _ hs)⟩
      | piece s r l hs h => exact ⟨_, .piece (c :: s) r l (hn _ hs) h⟩

theorem pieces_iff (s : Str) (l : List Str) : Pieces s l ↔ split ['.'] s = l := by
  refine ⟨pieces_split, ?_⟩
  rintro rfl
  obtain ⟨l, h⟩ := pieces_exist s
  rw [pieces_split h]; exact h

theorem substitute_stands (hN : NoneOk J) (name v g : Str) (h : Stands J dicts name v) :
    substitute J dicts ('@' :: name) g = v := by
  obtain ⟨first, as, rest, o, o', h1, ⟨ds, d, ds', rfl, h2, h3⟩, h4, h5, h6, rfl⟩ := h
  unfold substitute
  rw [pieces_split h1, List.cons_append, follow]
  simp only [hN.isNone, if_true, lookup_first J first o ds ds' d h2 h3, follow_path J _ o o' as rest h4 h5 h6, h5]
  simp

theorem substitute_undefined (hN : NoneOk J) (name g : Str) (h : Undefined J dicts name) :
    substitute J dicts ('@' :: name) g = g := by
  unfold substitute
  cases hs : split ['.'] ('@' :: name) with
  | nil => exact absurd hs (split_ne_nil _ _)
  | cons first rest =>
    obtain ⟨x, rfl⟩ := split_head_at name first rest hs
    have hl : lookup J dicts ('@' :: x) = none := by
      unfold lookup
      rw [List.findSome?_eq_none_iff]
      intro d hd
      exact h _ _ ((pieces_iff _ _).2 hs) d hd
    rw [follow]
    simp only [hN.isNone, if_true, hl, hN.attr]

theorem src_mac_drop (name : Str) (b : Option Str) :
    '@' :: name ++ (Part.mac name b).src.drop (name.length + 1) = (Part.mac name b).src := by
  have : (Part.mac name b).src.take (name.length + 1) = '@' :: name := by
    cases b <;> simp [Part.src]
  rw [← this, List.take_append_drop]

theorem subn_parts (hch : Chars isWord sp) (hN : NoneOk J) (ps : List Part) (r : Str) (hg : Good isWord sp ps)
    (hr : Replaced J dicts ps r) : subn J isWord sp dicts (src ps) 0 = (r, nmacs ps) := by
  induction ps generalizing r with
  | nil => cases hr; rfl
  | cons p ps ih =>
    have mac : ∀ name b v r', p = .mac name b → Replaced J dicts ps r' →
        substitute J dicts ('@' :: name) (Part.mac name b).src = v →
        subn J isWord sp dicts (src (p :: ps)) 0 = (v ++ r', nmacs (p :: ps)) := by
      intro name b v r' hp hr' hsub
      subst hp
      have hm := macroAt_part isWord sp hch name b ps hg
      have hs : src (.mac name b :: ps) = '@' :: ((Part.mac name b).src.drop 1 ++ src ps) := by
        cases b <;> simp [src, Part.src]
      have hdrop : ('@' :: name ++ (Part.mac name b).src.drop (name.length + 1)).length - 1 =
          ((Part.mac name b).src.drop 1).length := by
        rw [src_mac_drop, List.length_drop]
      rw [hs] at hm ⊢
      rw [subn, hm]
      dsimp only
      rw [hdrop, subn_skip, ih r' hg.2.2.2 hr', src_mac_drop, hsub]
      rfl
    cases hr with
    | text h =>
      rename_i t r
      have hs : src (.text t :: ps) = t ++ src ps := by simp [src, Part.src]
      rw [hs, subn_text J isWord sp dicts t _ hg.1, ih r hg.2 h]
      rfl
    | mac hv h => exact mac _ _ _ _ rfl h (substitute_stands J dicts hN _ _ _ hv)
    | undef hu h => exact mac _ _ _ _ rfl h (substitute_undefined J dicts hN _ _ hu)

/-- After replacement there are only undefined macros left. -/
theorem replaced_again (ps : List Part) (hv : ∀ name b v, Part.mac name b ∈ ps → Stands J dicts name v → '@' ∉ v) (r : Str)
    (hg : Good isWord sp ps) (hr : Replaced J dicts ps r) :
    ∃ ps', Good isWord sp ps' ∧ src ps' = r ∧ Replaced J dicts ps' r ∧ nmacs ps' ≤ nmacs ps ∧
      (∀ p ∈ ps', ∀ name b, p = Part.mac name b → Undefined J dicts name) ∧
      (∀ c t ps0, ps = .text (c :: t) :: ps0 → ∃ ps1, ps' = .text (c :: t) :: ps1) ∧ (ps = [] → ps' = []) := by
  induction ps generalizing r with
  | nil => cases hr; exact ⟨[], trivial, rfl, .nil, Nat.le_refl _, by simp, by simp, by simp⟩
  | cons p ps ih =>
    cases hr with
    | text h =>
      rename_i t r
      obtain ⟨ps', g1, g2, g3, g4, g5, g6, g7⟩ := ih (fun n b v h => hv n b v (List.mem_cons_of_mem _ h)) r hg.2 h
      refine ⟨.text t :: ps', ⟨hg.1, g1⟩, by simp [src, Part.src, ← g2], .text g3, g4, ?_, ?_, by simp⟩
      · intro p hp name b he
        rcases List.mem_cons.1 hp with rfl | hp
        · simp at he
        · exact g5 p hp name b he
      · intro c t' ps0 he
        simp only [List.cons.injEq, Part.text.injEq] at he
        exact ⟨ps', by rw [he.1]⟩
    | mac hst h =>
      rename_i name b v r
      obtain ⟨ps', g1, g2, g3, g4, g5, g6, g7⟩ := ih (fun n b v h => hv n b v (List.mem_cons_of_mem _ h)) r hg.2.2.2 h
      have hv' : '@' ∉ v := hv name b v (List.mem_cons_self ..) hst
      refine ⟨.text v :: ps', ⟨hv', g1⟩, by simp [src, Part.src, ← g2], .text g3, by simp [nmacs]; omega, ?_, by simp, by simp⟩
      intro p hp name b he
      rcases List.mem_cons.1 hp with rfl | hp
      · simp at he
      · exact g5 p hp name b he
    | undef hu h =>
      rename_i name b r
      obtain ⟨ps', g1, g2, g3, g4, g5, g6, g7⟩ := ih (fun n b v h => hv n b v (List.mem_cons_of_mem _ h)) r hg.2.2.2 h
      refine ⟨.mac name b :: ps', ⟨hg.1, hg.2.1, ?_, g1⟩, by simp [src, ← g2], .undef hu g3, by simp [nmacs]; omega, ?_,
        by simp, by simp⟩
      · have := hg.2.2.1
        cases b with
        | some b => exact this
        | none =>
          rcases this with h | ⟨c, t, ps0, h, h1⟩
          · exact Or.inl (g7 h)
          · obtain ⟨ps1, rfl⟩ := g6 c t ps0 h
            exact Or.inr ⟨c, t, ps1, rfl, h1⟩
      · intro p hp name' b' he
        rcases List.mem_cons.1 hp with rfl | hp
        · simp only [Part.mac.injEq] at he
          rw [← he.1]; exact hu
        · exact g5 p hp name' b' he

/-- C25. In a text made of parts that can be told apart, every defined macro is replaced by what it stands for and
everything else is left as it is, if the values of its macros have no `@`. Partial: with values that are macros themselves some
may be left, see `C25_left`. -/
theorem C25_replaced_partial (hch : Chars isWord sp) (hN : NoneOk J) (ps : List Part)
    (hv : ∀ name b v, Part.mac name b ∈ ps → Stands J dicts name v → '@' ∉ v) (r : Str)
    (hg : Good isWord sp ps) (hr : Replaced J dicts ps r) (fuel : Nat) (hf : 2 ≤ fuel) :
    replaceMacros J isWord sp dicts fuel (src ps) = some r := by
  obtain ⟨fuel, rfl⟩ : ∃ f, fuel = f + 2 := ⟨fuel - 2, by omega⟩
  obtain ⟨ps', g1, g2, g3, g4, _⟩ := replaced_again J isWord sp dicts ps hv r hg hr
  have h1 := subn_parts J isWord sp dicts hch hN ps r hg hr
  have h2 := subn_parts J isWord sp dicts hch hN ps' r g1 g3
  rw [g2] at h2
  unfold replaceMacros
  rw [h1]
  dsimp only
  unfold repeatSub
  rw [h2]
  split
  · dsimp only
    unfold repeatSub
    rw [if_neg (by omega)]
  · rfl

/-- C25. And no defined macro is left in the result: it is made of text and undefined macros. -/
theorem C25_none_left_partial (hch : Chars isWord sp) (hN : NoneOk J) (ps : List Part)
    (hv : ∀ name b v, Part.mac name b ∈ ps → Stands J dicts name v → '@' ∉ v) (r : Str)
    (hg : Good isWord sp ps) (hr : Replaced J dicts ps r) (fuel : Nat) (hf : 2 ≤ fuel) :
    ∃ ps', replaceMacros J isWord sp dicts fuel (src ps) = some (src ps') ∧ Good isWord sp ps' ∧
      ∀ name b, Part.mac name b ∈ ps' → Undefined J dicts name := by
  obtain ⟨ps', g1, g2, _, _, g5, _⟩ := replaced_again J isWord sp dicts ps hv r hg hr
  refine ⟨ps', ?_, g1, fun name b h => g5 _ h name b rfl⟩
  rw [g2]
  exact C25_replaced_partial J isWord sp dicts hch hN ps hv r hg hr fuel hf

/-! ### Findings -/

/-- Objects that are texts or `None`. -/
def texts : Objs := ⟨Option Str, none, Option.isNone, fun _ _ => none, fun o => o.getD []⟩

theorem texts_none : NoneOk texts := ⟨rfl, fun _ => rfl⟩

def letter (c : Char) : Bool := decide ('a' ≤ c ∧ c ≤ 'z')

theorem letter_chars : Chars letter (· = ' ') := ⟨by decide, by decide, by decide⟩

/-- `n + 1` times the macro `@a`. -/
def reps : Nat → Str
  | 0 => "@a".toList
  | n + 1 => "@a ".toList ++ reps n

theorem subn_reps (n : Nat) :
    subn texts letter (· = ' ') [[("@a".toList, some "@a @a".toList)]] (reps n) 0 = (reps (2 * n + 1), n + 1) := by
  induction n with
  | zero => decide
  | succ n ih =>
    have hm : macroAt letter (· = ' ') (reps (n + 1)) = some ("@a".toList, []) := rfl
    have e : reps (n + 1) = '@' :: 'a' :: ' ' :: reps n := rfl
    have hsub : substitute texts [[("@a".toList, some "@a @a".toList)]] "@a".toList ("@a".toList ++ []) = "@a @a".toList := by
      decide
    have hsp := subn_text texts letter (· = ' ') [[("@a".toList, some "@a @a".toList)]] [' '] (reps n) (by decide)
    rw [e] at hm ⊢
    rw [subn, hm]
    dsimp only
    rw [hsub]
    have h1 : subn texts letter (· = ' ') [[("@a".toList, some "@a @a".toList)]] ('a' :: ' ' :: reps n)
        (("@a".toList ++ []).length - 1) = (' ' :: reps (2 * n + 1), n + 1) := by
      show subn texts letter (· = ' ') [[("@a".toList, some "@a @a".toList)]] ('a' :: ' ' :: reps n) (0 + 1) = _
      rw [subn]
      rw [List.singleton_append] at hsp
      rw [hsp, ih]; rfl
    rw [h1]
    rfl

/-- Finding: substitution need not end. The macro `@a` with the value `@a @a` makes the text longer for ever. -/
theorem C25_does_not_end (fuel : Nat) :
    replaceMacros texts letter (· = ' ') [[("@a".toList, some "@a @a".toList)]] fuel "@a".toList = none := by
  have key : ∀ fuel m num last, last < num → num ≤ m →
      repeatSub texts letter (· = ' ') [[("@a".toList, some "@a @a".toList)]] fuel (reps m) num last = none := by
    intro fuel
    induction fuel with
    | zero => intros; rfl
    | succ fuel ih =>
      intro m num last h1 h2
      rw [repeatSub, if_pos (by omega), subn_reps]
      exact ih _ _ _ (by omega) (by omega)
  unfold replaceMacros
  have h0 : subn texts letter (· = ' ') [[("@a".toList, some "@a @a".toList)]] "@a".toList 0 = (reps 1, 1) := subn_reps 0
  rw [h0]
  exact key fuel 1 1 0 (by omega) (by omega)

/-- Finding: macros with macros as values are not replaced down to the end: of a chain of three only two are. -/
theorem C25_left : replaceMacros texts letter (· = ' ')
    [[("@a".toList, some "@b".toList), ("@b".toList, some "@c".toList), ("@c".toList, some "x".toList)]] 2 "@a".toList =
    some "@c".toList := by decide

/-- Finding: also with values without `@` a defined macro may be left, if another `@` comes before it. -/
theorem C25_left_at : replaceMacros texts letter (· = ' ') [[("@a".toList, some "a".toList)]] 2 "@@@a".toList =
    some "@a".toList := by decide

example : replaceMacros texts letter (· = ' ') [[("@p".toList, some "y".toList)], [("@p".toList, some "z".toList)]] 2
    "in @p{ }, @q and @p.x".toList = some "in y, @q and y.x".toList := by decide

example : Good letter (· = ' ') [.text "in ".toList, .mac "p".toList (some [' ']), .text ", ".toList, .mac "q".toList none,
    .text " and".toList] := by
  refine ⟨by decide, by decide, by decide, by decide, by decide, by decide, by decide, ?_, by decide, trivial⟩
  exact Or.inr ⟨' ', "and".toList, [], by decide, by decide, by decide, Or.inl (by decide)⟩

end Verif.Macros
