import Verif.Spec.Paths
import Verif.Lemmas.Strings

/-! # Lemmas about paths -/

namespace Verif.Paths

open Verif Verif.Utils

theorem parse_good (s : Str) : Good (parse s) := by
  intro c hc
  simp only [parse, List.mem_filter, decide_eq_true_eq] at hc
  exact ⟨hc.2.1, hc.2.2, split_char_not_mem '/' s c hc.1⟩

theorem filter_names (l : List Str) (h : ∀ c ∈ l, IsName c) :
    l.filter (fun c => decide (c ≠ [] ∧ c ≠ ['.'])) = l := by
  apply List.filter_eq_self.2
  intro c hc
  simpa using ⟨(h c hc).1, (h c hc).2.1⟩

theorem join_head (l : List Str) (h : ∀ c ∈ l, IsName c) : (join ['/'] l).head? ≠ some '/' := by
  cases l with
  | nil => simp [join]
  | cons a l =>
    obtain ⟨h1, _, h3⟩ := h a (by simp)
    cases a with
    | nil => exact absurd rfl h1
    | cons c a =>
      have hc : c ≠ '/' := by intro e; subst e; simp at h3
      cases l with
      | nil => simpa [join] using hc
      | cons b l => simpa [join] using hc

theorem split_join_names (l : List Str) (h : ∀ c ∈ l, IsName c) :
    (split ['/'] (join ['/'] l)).filter (fun c => decide (c ≠ [] ∧ c ≠ ['.'])) = l := by
  by_cases hl : l = []
  · subst hl; decide
  · rw [split_join '/' l hl (fun p hp => (h p hp).2.2)]
    exact filter_names l h

theorem parse_toStr (p : Path) (h : Good p) : parse (toStr p) = p := by
  obtain ⟨a, l⟩ := p
  have hl : ∀ c ∈ l, IsName c := h
  cases a with
  | true =>
    simp only [toStr, if_pos]
    have e : split ['/'] ('/' :: join ['/'] l) = [] :: split ['/'] (join ['/'] l) := by
      simpa using split_char '/' [] (join ['/'] l) (by simp)
    unfold parse
    rw [e, List.filter_cons_of_neg (by simp), split_join_names l hl]
    simp
  | false =>
    by_cases hn : l = []
    · subst hn; decide
    · have e : toStr ⟨false, l⟩ = join ['/'] l := by simp [toStr, hn]
      rw [e]
      unfold parse
      rw [split_join_names l hl]
      simp [join_head l hl]

theorem parse_name (n : Str) (h : IsName n) : parse n = ⟨false, [n]⟩ := by
  have := parse_toStr ⟨false, [n]⟩ (by intro c hc; simp at hc; subst hc; exact h)
  simpa [toStr, join] using this

theorem good_child (d : Path) (n : Str) (hd : Good d) (hn : IsName n) : Good (child d n) := by
  intro c hc
  simp only [child, List.mem_append, List.mem_singleton] at hc
  rcases hc with hc | hc
  · exact hd c hc
  · subst hc; exact hn

theorem good_div (a b : Path) (ha : Good a) (hb : Good b) : Good (div a b) := by
  unfold div
  split
  · exact hb
  · intro c hc
    rcases List.mem_append.1 hc with hc | hc
    · exact ha c hc
    · exact hb c hc

theorem good_parent (p : Path) (h : Good p) : Good (parent p) := by
  intro c hc
  exact h c ((List.dropLast_sublist _).mem hc)

theorem name_child (d : Path) (n : Str) : name (child d n) = n := by simp [name, child]

theorem parent_child (d : Path) (n : Str) : parent (child d n) = d := by simp [parent, child]

theorem child_parent_name (p : Path) (h : p.parts ≠ []) : child (parent p) (name p) = p := by
  obtain ⟨a, l⟩ := p
  simp only [child, parent, name]
  congr 1
  have h' : l ≠ [] := h
  rw [List.getLast?_eq_some_getLast h', Option.getD_some, List.dropLast_concat_getLast h']

theorem div_name (d : Path) (n : Str) (h : IsName n) : div d (parse n) = child d n := by
  rw [parse_name n h]; rfl

theorem div_rel (a b : Path) (h : b.abs = false) : div a b = ⟨a.abs, a.parts ++ b.parts⟩ := by
  simp [div, h]

theorem div_assoc (a b c : Path) : div (div a b) c = div a (div b c) := by
  unfold div
  by_cases hc : c.abs = true
  · simp [hc]
  · by_cases hb : b.abs = true
    · simp [hc, hb]
    · simp [hc, hb]

/-! ## Extensions -/

theorem lastDot_none (s : Str) (h : lastDot s = none) : '.' ∉ s := by
  induction s with
  | nil => simp
  | cons c t ih =>
    unfold lastDot at h
    cases hl : lastDot t with
    | some x => rw [hl] at h; simp at h
    | none =>
      rw [hl] at h
      by_cases hc : c = '.'
      · simp [hc] at h
      · simp only [List.mem_cons, not_or]
        exact ⟨fun e => hc e.symm, ih hl⟩

theorem lastDot_some (s a b : Str) : lastDot s = some (a, b) ↔ s = a ++ '.' :: b ∧ '.' ∉ b := by
  induction s generalizing a b with
  | nil => simp [lastDot]
  | cons c t ih =>
    unfold lastDot
    cases h : lastDot t with
    | some x =>
      obtain ⟨x, y⟩ := x
      have hx := (ih x y).1 h
      simp only [Option.some.injEq, Prod.mk.injEq]
      constructor
      · rintro ⟨rfl, rfl⟩
        exact ⟨by rw [hx.1]; rfl, hx.2⟩
      · rintro ⟨e, hb⟩
        cases a with
        | nil =>
          exfalso
          simp only [List.nil_append, List.cons.injEq] at e
          apply hb; rw [← e.2, hx.1]; simp
        | cons a0 a =>
          simp only [List.cons_append, List.cons.injEq] at e
          have := (ih a b).2 ⟨e.2, hb⟩
          rw [h] at this
          simp only [Option.some.injEq, Prod.mk.injEq] at this
          exact ⟨by rw [e.1, this.1], this.2⟩
    | none =>
      have hn : '.' ∉ t := lastDot_none t h
      by_cases hc : c = '.'
      · subst hc
        simp only [if_pos, Option.some.injEq, Prod.mk.injEq]
        constructor
        · rintro ⟨rfl, rfl⟩; exact ⟨rfl, hn⟩
        · rintro ⟨e, hb⟩
          cases a with
          | nil => simp at e; exact ⟨rfl, e⟩
          | cons a0 a =>
            simp only [List.cons_append, List.cons.injEq] at e
            exfalso; apply hn; rw [e.2]; simp
      · simp only [if_neg hc]
        constructor
        · intro e; simp at e
        · rintro ⟨e, hb⟩
          cases a with
          | nil => simp at e; exact absurd e.1 hc
          | cons a0 a =>
            simp only [List.cons_append, List.cons.injEq] at e
            exfalso; apply hn; rw [e.2]; simp

theorem suffix_ext (d : Path) (st e : Str) (hs : st ≠ []) (he : e ≠ []) (hd : '.' ∉ e) :
    suffix (child d (st ++ '.' :: e)) = '.' :: e := by
  unfold suffix
  rw [name_child, (lastDot_some _ st e).2 ⟨rfl, hd⟩]
  simp [hs, he]

theorem stem_ext (d : Path) (st e : Str) (hs : st ≠ []) (he : e ≠ []) (hd : '.' ∉ e) :
    stem (child d (st ++ '.' :: e)) = st := by
  unfold stem
  rw [name_child, (lastDot_some _ st e).2 ⟨rfl, hd⟩]
  simp [hs, he]

theorem suffix_noext (d : Path) (n : Str) (h : NoExt n) : suffix (child d n) = [] := by
  unfold suffix
  rw [name_child]
  cases hl : lastDot n with
  | none => rfl
  | some x =>
    obtain ⟨a, b⟩ := x
    obtain ⟨e, hb⟩ := (lastDot_some n a b).1 hl
    rcases h a b e hb with rfl | rfl <;> simp

theorem stem_noext (d : Path) (n : Str) (h : NoExt n) : stem (child d n) = n := by
  unfold stem
  rw [name_child]
  cases hl : lastDot n with
  | none => rfl
  | some x =>
    obtain ⟨a, b⟩ := x
    obtain ⟨e, hb⟩ := (lastDot_some n a b).1 hl
    rcases h a b e hb with rfl | rfl <;> simp

/-- Every name has an extension or has none. -/
theorem name_cases (n : Str) :
    (∃ st e, n = st ++ '.' :: e ∧ st ≠ [] ∧ e ≠ [] ∧ '.' ∉ e) ∨ NoExt n := by
  cases hl : lastDot n with
  | none =>
    right
    intro a b e _
    have := lastDot_none n hl
    exact absurd (by rw [e]; simp) this
  | some x =>
    obtain ⟨a, b⟩ := x
    obtain ⟨e, hb⟩ := (lastDot_some n a b).1 hl
    by_cases ha : a = []
    · right
      intro a' b' e' hb'
      have := (lastDot_some n a' b').2 ⟨e', hb'⟩
      rw [hl] at this
      simp only [Option.some.injEq, Prod.mk.injEq] at this
      left; rw [← this.1]; exact ha
    · by_cases hb0 : b = []
      · right
        intro a' b' e' hb'
        have := (lastDot_some n a' b').2 ⟨e', hb'⟩
        rw [hl] at this
        simp only [Option.some.injEq, Prod.mk.injEq] at this
        right; rw [← this.2]; exact hb0
      · left; exact ⟨a, b, e, ha, hb0, hb⟩

/-! ## The `use_*` methods -/

theorem mkSource_rel (root : Path) (sub : Path) (hr : Good root) (hs : Good sub) (ha : sub.abs = false) :
    mkSource (toStr root) (toStr sub) = .ok ⟨root, sub⟩ := by
  simp [mkSource, parse_toStr root hr, parse_toStr sub hs, ha]

theorem stripDots_clean (s : Str) (h1 : s.head? ≠ some '.') (h2 : s.getLast? ≠ some '.') : stripDots s = s := by
  unfold stripDots strip lstrip rstrip
  have e1 : s.dropWhile (fun c => decide (c = '.')) = s := by
    cases s with
    | nil => rfl
    | cons c t =>
      have : c ≠ '.' := by simpa using h1
      simp [this]
  rw [e1]
  have e2 : s.reverse.dropWhile (fun c => decide (c = '.')) = s.reverse := by
    rw [← List.head?_reverse] at h2
    cases hr : s.reverse with
    | nil => rfl
    | cons c t =>
      rw [hr] at h2
      have : c ≠ '.' := by simpa using h2
      simp [this]
  rw [e2, List.reverse_reverse]

theorem stripDots_target (t : Path) (hg : Good t) (h : CleanTarget t) : parse (stripDots (toStr t)) = t := by
  obtain ⟨ha, h⟩ := h
  rcases h with h | ⟨h1, h2⟩
  · obtain ⟨a, l⟩ := t
    simp only at ha h
    subst ha h
    decide
  · rw [stripDots_clean _ h1 h2, parse_toStr t hg]

theorem mkTarget_rel (root target sub : Path) (hr : Good root) (ht : Good target) (hc : CleanTarget target)
    (hs : Good sub) (ha : sub.abs = false) :
    mkTarget (toStr root) (toStr target) (toStr sub) = .ok ⟨root, target, sub⟩ := by
  simp [mkTarget, parse_toStr root hr, parse_toStr sub hs, ha, stripDots_target target ht hc]

theorem withName_child (d : Path) (m n : Str) (hm : m ≠ []) (hn : IsName n) :
    withName (child d m) n = .ok (child d n) := by
  unfold withName
  have h1 : ¬ (n = [] ∨ n.getLast? = some '/' ∨ (parse n).abs = true ∨ (parse n).parts.length ≠ 1) := by
    rw [parse_name n hn]
    simp only [ne_eq, List.length_singleton, not_true_eq_false, or_false, Bool.false_eq_true, not_or]
    refine ⟨hn.1, ?_⟩
    intro h
    exact hn.2.2 (List.mem_of_getLast? h)
  rw [name_child, if_neg hm, if_neg h1]
  simp [child]

theorem withSuffix_ext (d : Path) (st e x : Str) (hs : st ≠ []) (he : e ≠ []) (hd : '.' ∉ e)
    (h1 : '/' ∉ x) (h2 : x = [] ∨ x.head? = some '.') (h3 : x ≠ ['.']) :
    withSuffix (child d (st ++ '.' :: e)) x = .ok (child d (st ++ x)) := by
  unfold withSuffix
  rw [if_neg h1, if_neg (by
    rintro (⟨a, b⟩ | h)
    · rcases h2 with h2 | h2
      · exact a h2
      · exact b h2
    · exact h3 h), name_child, if_neg (by simp), suffix_ext d st e hs he hd]
  simp [child]

theorem withSuffix_noext (d : Path) (n x : Str) (hn : n ≠ []) (h : NoExt n)
    (h1 : '/' ∉ x) (h2 : x = [] ∨ x.head? = some '.') (h3 : x ≠ ['.']) :
    withSuffix (child d n) x = .ok (child d (n ++ x)) := by
  unfold withSuffix
  rw [if_neg h1, if_neg (by
    rintro (⟨a, b⟩ | h)
    · rcases h2 with h2 | h2
      · exact a h2
      · exact b h2
    · exact h3 h), name_child, if_neg hn, suffix_noext d n h]
  simp [child]

/-! ## `rename` -/

theorem rename_ext (d : Path) (st e : Str) (hs : st ≠ []) (he : e ≠ []) (hd : '.' ∉ e) (f a x : Option Str)
    (hn : IsName (f.getD st ++ a.getD [] ++ dotted (x.getD ('.' :: e)))) :
    rename (child d (st ++ '.' :: e)) f a x = child d (f.getD st ++ a.getD [] ++ dotted (x.getD ('.' :: e))) := by
  unfold rename
  simp only [stem_ext d st e hs he hd, suffix_ext d st e hs he hd, parent_child]
  exact div_name d _ hn

theorem rename_noext (d : Path) (n : Str) (h : NoExt n) (f a x : Option Str)
    (hn : IsName (f.getD n ++ a.getD [] ++ dotted (x.getD []))) :
    rename (child d n) f a x = child d (f.getD n ++ a.getD [] ++ dotted (x.getD [])) := by
  unfold rename
  simp only [stem_noext d n h, suffix_noext d n h, parent_child]
  exact div_name d _ hn

end Verif.Paths
