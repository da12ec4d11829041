import Verif.Spec.Scanner
import Verif.Lemmas.Strings
import Verif.Lemmas.Paths

/-!
# Lemmas about the scan for dependencies
-/

namespace Verif.Scanner

open Verif Verif.Paths

/-! ### The first match -/

/-- The first match with which the rest of the expression succeeds. -/
def run {β : Type} (a : Re) (s : Str) (k : Str → Option β) : Option β := (a s).findSome? fun m => k m.2

theorem head?_flatMap {α β : Type} (l : List α) (f : α → List β) : (l.flatMap f).head? = l.findSome? fun x => (f x).head? := by
  induction l with
  | nil => rfl
  | cons x l ih =>
    rw [List.flatMap_cons, List.head?_append, List.findSome?_cons, ih]
    cases (f x).head? <;> rfl

theorem findSome?_flatMap {α β γ : Type} (l : List α) (f : α → List β) (g : β → Option γ) :
    (l.flatMap f).findSome? g = l.findSome? fun x => (f x).findSome? g := by
  induction l with
  | nil => rfl
  | cons x l ih =>
    rw [List.flatMap_cons, List.findSome?_append, List.findSome?_cons, ih]
    cases (f x).findSome? g <;> rfl

theorem findSome?_map' {α β γ : Type} (l : List α) (f : α → β) (g : β → Option γ) :
    (l.map f).findSome? g = l.findSome? fun x => g (f x) := by
  induction l with
  | nil => rfl
  | cons x l ih => rw [List.map_cons, List.findSome?_cons, List.findSome?_cons, ih]

variable {β : Type}

theorem run_seq (a b : Re) (s : Str) (k : Str → Option β) : run (seq a b) s k = run a s fun r => run b r k := by
  unfold run seq
  rw [findSome?_flatMap]
  congr 1
  funext m
  rw [findSome?_map']

theorem run_opt (a : Re) (s : Str) (k : Str → Option β) : run (opt a) s k = (run a s k).or (k s) := by
  unfold run opt
  rw [List.findSome?_append]
  congr 1
  simp

theorem run_lit (w r : Str) (k : Str → Option β) : run (lit w) (w ++ r) k = k r := by
  unfold run lit
  rw [if_pos (List.isPrefixOf_iff_prefix.2 ⟨r, rfl⟩)]
  simp

theorem run_lit_none (w s : Str) (k : Str → Option β) (h : ¬ w <+: s) : run (lit w) s k = none := by
  unfold run lit
  rw [if_neg (fun e => h (List.isPrefixOf_iff_prefix.1 e))]
  rfl

theorem run_cls (p : Char → Bool) (c : Char) (t : Str) (k : Str → Option β) : run (cls p) (c :: t) k = if p c = true then k t else none := by
  unfold run
  rw [cls]
  by_cases h : p c = true
  · rw [if_pos h, if_pos h]; simp
  · rw [if_neg h, if_neg h]; rfl

theorem run_star (p : Char → Bool) (a r : Str) (k : Str → Option β) (ha : ∀ c ∈ a, p c = true) (hr : ∀ c, r.head? = some c → p c = false)
    (v : β) (hv : k r = some v) : run (star p) (a ++ r) k = some v := by
  induction a with
  | nil =>
    cases r with
    | nil => simp [run, star, hv]
    | cons c t => simp [run, star, hr c rfl, hv]
  | cons c a ih =>
    have ih := ih fun c' hc' => ha c' (by simp [hc'])
    unfold run at ih ⊢
    rw [List.cons_append, star, if_pos (ha c (by simp)), List.findSome?_append, findSome?_map', ih]
    rfl

theorem run_plus (p : Char → Bool) (a r : Str) (k : Str → Option β) (hne : a ≠ []) (ha : ∀ c ∈ a, p c = true)
    (hr : ∀ c, r.head? = some c → p c = false) (v : β) (hv : k r = some v) : run (plus p) (a ++ r) k = some v := by
  cases a with
  | nil => exact absurd rfl hne
  | cons c a =>
    unfold plus
    rw [run_seq, List.cons_append, run_cls, if_pos (ha c (by simp))]
    exact run_star p a r k (fun c' hc' => ha c' (by simp [hc'])) hr v hv

/-- Matches of a star: what is consumed is in the class. -/
theorem star_mem (p : Char → Bool) (s : Str) (m : Str × Str) (h : m ∈ star p s) : s = m.1 ++ m.2 ∧ ∀ c ∈ m.1, p c = true := by
  induction s generalizing m with
  | nil => simp [star] at h; subst h; simp
  | cons c t ih =>
    rw [star, List.mem_append] at h
    rcases h with h | h
    · by_cases hp : p c = true
      · rw [if_pos hp, List.mem_map] at h
        obtain ⟨m', hm', rfl⟩ := h
        obtain ⟨e, e'⟩ := ih m' hm'
        refine ⟨by simp [e], ?_⟩
        intro c' hc'
        rcases List.mem_cons.1 hc' with rfl | hc'
        · exact hp
        · exact e' c' hc'
      · rw [if_neg hp] at h; cases h
    · simp only [List.mem_singleton] at h; subst h; simp

theorem lazyStar_mem (p : Char → Bool) (s : Str) (m : Str × Str) (h : m ∈ lazyStar p s) : s = m.1 ++ m.2 ∧ ∀ c ∈ m.1, p c = true := by
  induction s generalizing m with
  | nil => simp [lazyStar] at h; subst h; simp
  | cons c t ih =>
    rw [lazyStar, List.mem_cons] at h
    rcases h with rfl | h
    · simp
    · by_cases hp : p c = true
      · rw [if_pos hp, List.mem_map] at h
        obtain ⟨m', hm', rfl⟩ := h
        obtain ⟨e, e'⟩ := ih m' hm'
        refine ⟨by simp [e], ?_⟩
        intro c' hc'
        rcases List.mem_cons.1 hc' with rfl | hc'
        · exact hp
        · exact e' c' hc'
      · rw [if_neg hp] at h; cases h

theorem cls_mem (p : Char → Bool) (s : Str) (m : Str × Str) (h : m ∈ cls p s) : ∃ c, s = c :: m.2 ∧ m.1 = [c] ∧ p c = true := by
  cases s with
  | nil => cases h
  | cons c t =>
    rw [cls] at h
    by_cases hp : p c = true
    · rw [if_pos hp, List.mem_singleton] at h; subst h; exact ⟨c, rfl, rfl, hp⟩
    · rw [if_neg hp] at h; cases h

theorem lit_mem (w s : Str) (m : Str × Str) (h : m ∈ lit w s) : s = m.1 ++ m.2 ∧ m.1 = w := by
  unfold lit at h
  by_cases hp : w.isPrefixOf s = true
  · rw [if_pos hp, List.mem_singleton] at h
    obtain ⟨t, rfl⟩ := List.isPrefixOf_iff_prefix.1 hp
    subst h
    simp
  · rw [if_neg hp] at h; cases h

theorem seq_mem (a b : Re) (s : Str) (m : Str × Str) (h : m ∈ seq a b s) : ∃ x y, x ∈ a s ∧ y ∈ b x.2 ∧ m = (x.1 ++ y.1, y.2) := by
  unfold seq at h
  rw [List.mem_flatMap] at h
  obtain ⟨x, hx, h⟩ := h
  rw [List.mem_map] at h
  obtain ⟨y, hy, rfl⟩ := h
  exact ⟨x, y, hx, hy, rfl⟩

theorem plus_mem (p : Char → Bool) (s : Str) (m : Str × Str) (h : m ∈ plus p s) : s = m.1 ++ m.2 ∧ m.1 ≠ [] ∧ ∀ c ∈ m.1, p c = true := by
  obtain ⟨x, y, hx, hy, rfl⟩ := seq_mem _ _ _ _ h
  obtain ⟨c, e, e1, e2⟩ := cls_mem _ _ _ hx
  obtain ⟨f, f1⟩ := star_mem _ _ _ hy
  refine ⟨by rw [e, f, e1]; rfl, by simp [e1], ?_⟩
  intro c' hc'
  simp only [e1, List.cons_append, List.nil_append, List.mem_cons] at hc'
  rcases hc' with rfl | hc'
  · exact e2
  · exact f1 c' hc'

theorem opening_iff (sp : Char → Bool) (c : Char) : opening sp c = true ↔ (c = '"' ∨ c = '\'' ∨ c = '{' ∨ sp c = true) := by
  simp only [opening, Bool.or_eq_true, decide_eq_true_eq]
  constructor
  · rintro (((h | h) | h) | h)
    · exact .inl h
    · exact .inr (.inl h)
    · exact .inr (.inr (.inr h))
    · exact .inr (.inr (.inl h))
  · rintro (h | h | h | h)
    · exact .inl (.inl (.inl h))
    · exact .inl (.inl (.inr h))
    · exact .inr h
    · exact .inl (.inr h)

/-- What is found is in a link. -/
theorem linkAt_sound (sp : Char → Bool) (hgt : sp '>' = false) (tag key s g rest : Str) (h : linkAt sp tag key s = some (g, rest)) :
    ∃ gap attrs opened q x, IsLink sp tag key gap attrs opened g q x ∧ s = x ++ rest := by
  unfold linkAt at h
  have hm := List.mem_of_mem_head? h
  rw [List.mem_flatMap] at hm
  obtain ⟨m, hb, hm⟩ := hm
  rw [List.mem_flatMap] at hm
  obtain ⟨w, hw, hm⟩ := hm
  rw [List.mem_map] at hm
  obtain ⟨q, hq, e⟩ := hm
  cases e
  obtain ⟨e1, e2⟩ := lazyStar_mem _ _ _ hw
  obtain ⟨c, e3, -, e4⟩ := cls_mem _ _ _ hq
  unfold before at hb
  obtain ⟨x1, y1, hx1, hy1, rfl⟩ := seq_mem _ _ _ _ hb
  obtain ⟨x2, y2, hx2, hy2, rfl⟩ := seq_mem _ _ _ _ hy1
  obtain ⟨x3, y3, hx3, hy3, rfl⟩ := seq_mem _ _ _ _ hy2
  obtain ⟨x4, y4, hx4, hy4, rfl⟩ := seq_mem _ _ _ _ hy3
  obtain ⟨x5, y5, hx5, hy5, rfl⟩ := seq_mem _ _ _ _ hy4
  obtain ⟨f1, f2⟩ := lit_mem _ _ _ hx1
  obtain ⟨f3, f4, f5⟩ := plus_mem _ _ _ hx2
  obtain ⟨f6, f7⟩ := lit_mem _ _ _ hx4
  obtain ⟨f8, f9⟩ := star_mem _ _ _ hx5
  obtain ⟨f10, f11, f12⟩ := plus_mem _ _ _ hy5
  have h3 : x2.2 = x3.1 ++ x3.2 ∧ (x3.1 = [] ∨ ∃ a c, x3.1 = a ++ [c] ∧ sp c = true) ∧ '>' ∉ x3.1 := by
    unfold opt at hx3
    rw [List.mem_append] at hx3
    rcases hx3 with hx3 | hx3
    · obtain ⟨u, v, hu, hv, rfl⟩ := seq_mem _ _ _ _ hx3
      obtain ⟨g1, g2⟩ := lazyStar_mem _ _ _ hu
      obtain ⟨g3, g4, g5⟩ := plus_mem _ _ _ hv
      refine ⟨by rw [g1, g3]; simp, .inr ?_, ?_⟩
      · refine ⟨u.1 ++ v.1.dropLast, v.1.getLast g4, ?_, g5 _ (List.getLast_mem g4)⟩
        simp only [List.append_assoc]
        rw [List.dropLast_concat_getLast g4]
      · simp only [List.mem_append, not_or]
        constructor
        · intro h'; have := g2 _ h'; simp at this
        · intro h'; have := g5 _ h'; rw [hgt] at this; cases this
    · simp only [List.mem_singleton] at hx3
      subst hx3
      exact ⟨rfl, .inl rfl, by simp⟩
  obtain ⟨h31, h32, h33⟩ := h3
  refine ⟨x2.1, x3.1, x5.1 ++ y5.1, c, _, ⟨rfl, ⟨f4, f5⟩, h32, h33, ⟨?_, ?_⟩, ?_, ?_⟩, ?_⟩
  · intro h'; exact f11 (List.append_eq_nil_iff.1 h').2
  · intro c' hc'
    rcases List.mem_append.1 hc' with hc' | hc'
    · exact .inr (.inr (.inr (f9 _ hc')))
    · exact (opening_iff sp c').1 (f12 _ hc')
  · intro h'; have := e2 _ h'; simp at this
  · simpa [quote] using e4
  · simp only [f2] at f1
    simp only [f7] at f6
    rw [f1, f3, h31, f6, f8, f10]
    simp only at e1
    rw [e1, e3]
    simp [List.append_assoc]

theorem linkAt_shorter (sp : Char → Bool) (hgt : sp '>' = false) (tag key s g rest : Str) (h : linkAt sp tag key s = some (g, rest)) :
    rest.length < s.length := by
  obtain ⟨gap, attrs, opened, q, x, hl, rfl⟩ := linkAt_sound sp hgt tag key s g rest h
  rw [hl.text]
  simp
  omega

theorem links_fuel (sp : Char → Bool) (hgt : sp '>' = false) (tag key : Str) (n m : Nat) (s : Str) (hn : s.length ≤ n) (hm : s.length ≤ m) :
    links sp tag key n s = links sp tag key m s := by
  induction n generalizing m s with
  | zero =>
    have : s = [] := List.length_eq_zero_iff.1 (by omega)
    subst this
    cases m <;> rfl
  | succ n ih =>
    cases s with
    | nil => cases m <;> rfl
    | cons c t =>
      cases m with
      | zero => simp at hm
      | succ m =>
        rw [links, links]
        cases h : linkAt sp tag key (c :: t) with
        | none => exact ih m t (by simpa using hn) (by simpa using hm)
        | some gr =>
          obtain ⟨g, r⟩ := gr
          have := linkAt_shorter sp hgt tag key _ _ _ h
          simp only [List.length_cons] at this hn hm
          simp only
          rw [ih m r (by omega) (by omega)]

/-- The links of a text. -/
def linksOf (sp : Char → Bool) (tag key s : Str) : List Str := links sp tag key s.length s

theorem linksOf_nil (sp : Char → Bool) (tag key : Str) : linksOf sp tag key [] = [] := rfl

theorem linksOf_cons (sp : Char → Bool) (hgt : sp '>' = false) (tag key : Str) (c : Char) (t : Str) :
    linksOf sp tag key (c :: t) = match linkAt sp tag key (c :: t) with
      | some (g, rest) => g :: linksOf sp tag key rest
      | none => linksOf sp tag key t := by
  unfold linksOf
  rw [List.length_cons, links]
  cases h : linkAt sp tag key (c :: t) with
  | none => rfl
  | some gr =>
    obtain ⟨g, r⟩ := gr
    have := linkAt_shorter sp hgt tag key _ _ _ h
    simp only [List.length_cons] at this
    simp only
    rw [links_fuel sp hgt tag key t.length r.length r (by omega) (by omega)]

theorem linkAt_none (sp : Char → Bool) (tag key s : Str) (h : ¬ tag <+: s) : linkAt sp tag key s = none := by
  have : before sp tag key s = [] := by
    unfold before
    have hl : lit tag s = [] := by
      unfold lit
      rw [if_neg (fun e => h (List.isPrefixOf_iff_prefix.1 e))]
    rw [seq, hl]
    rfl
  rw [linkAt, this]
  rfl

theorem linksOf_skip (sp : Char → Bool) (hgt : sp '>' = false) (tag key : Str) (c0 : Char) (t0 : Str) (htag : tag = c0 :: t0) (hc0 : c0 ∉ t0)
    (plain rest : Str) (hp : ¬ tag <:+: plain) (hr : rest = [] ∨ rest.head? = some c0) :
    linksOf sp tag key (plain ++ rest) = linksOf sp tag key rest := by
  induction plain with
  | nil => rfl
  | cons c t ih =>
    have hno : ¬ tag <+: c :: (t ++ rest) := by
      rintro ⟨z, hz⟩
      apply hp
      by_cases hlen : tag.length ≤ (c :: t).length
      · refine ⟨[], (c :: t).drop tag.length, ?_⟩
        have : (c :: t).take tag.length = tag := by
          have h1 := congrArg (List.take tag.length) hz
          rw [List.take_left, ← List.cons_append, List.take_append_of_le_length hlen] at h1
          exact h1.symm
        rw [List.nil_append]
        conv => rhs; rw [← List.take_append_drop tag.length (c :: t)]
        rw [this]
      · exfalso
        have hgt' : (c :: t).length < tag.length := by omega
        -- the character of the rest is in the tail of the tag
        rcases hr with rfl | hr
        · have := congrArg List.length hz
          simp at this
          simp at hgt'
          omega
        · cases rest with
          | nil => cases hr
          | cons r0 rs =>
            cases hr
            have h1 := congrArg (fun l : Str => l[(c :: t).length]?) hz
            rw [List.getElem?_append_left hgt'] at h1
            have h2 : (c :: (t ++ c0 :: rs))[(c :: t).length]? = some c0 := by
              rw [← List.cons_append, List.getElem?_append_right (Nat.le_refl _)]
              simp
            rw [h2, htag] at h1
            simp only [List.length_cons, List.getElem?_cons_succ] at h1
            exact hc0 (List.mem_of_getElem? h1)
    rw [List.cons_append, linksOf_cons sp hgt, linkAt_none _ _ _ _ hno]
    simp only
    apply ih
    rintro ⟨a, b, e⟩
    exact hp ⟨c :: a, b, by rw [← e]; simp⟩

/-! ### A usual link -/

theorem run_none (a : Re) (s : Str) (k : Str → Option β) (h : ∀ m ∈ a s, k m.2 = none) : run a s k = none :=
  List.findSome?_eq_none_iff.2 h

theorem run_lazy (p : Char → Bool) (a r : Str) (k : Str → Option β) (ha : ∀ c ∈ a, p c = true)
    (hk : ∀ x y, a = x ++ y → y ≠ [] → k (y ++ r) = none) (v : β) (hv : k r = some v) : run (lazyStar p) (a ++ r) k = some v := by
  induction a with
  | nil =>
    cases r with
    | nil => simp [run, lazyStar, hv]
    | cons c t => simp [run, lazyStar, hv]
  | cons c a ih =>
    have h0 : k (c :: (a ++ r)) = none := by
      have := hk [] (c :: a) rfl (by simp)
      rw [List.cons_append] at this
      exact this
    have h1 := ih (fun x hx => ha x (by simp [hx])) (fun x y e hy => hk (c :: x) y (by rw [e]; rfl) hy)
    rw [List.cons_append]
    unfold run at h1 ⊢
    rw [lazyStar, List.findSome?_cons]
    simp only [h0]
    rw [if_pos (ha c (by simp)), findSome?_map']
    exact h1

/-- The group, and what follows it. -/
def group (r : Str) : Option (Str × Str) :=
  ((lazyStar (· ≠ '\n') r).flatMap fun g => (cls quote g.2).map fun q => (g.1, q.2)).head?

theorem group_eq (name after : Str) (q : Char) (hn : '"' ∉ name ∧ '\'' ∉ name) (hl : '\n' ∉ name) (hq : q = '"' ∨ q = '\'') :
    group (name ++ q :: after) = some (name, after) := by
  have hqt : quote q = true := by rcases hq with rfl | rfl <;> rfl
  have gen : ∀ (x : Str), (x ++ name = x ++ name) → ((lazyStar (· ≠ '\n') (name ++ q :: after)).flatMap
      fun g => (cls quote g.2).map fun q => (x ++ g.1, q.2)).head? = some (x ++ name, after) := by
    induction name with
    | nil =>
      intro x _
      rw [List.nil_append, lazyStar, List.flatMap_cons, cls, if_pos hqt]
      rfl
    | cons c t ih =>
      intro x _
      have hc : quote c = false := by
        unfold quote
        have h1 : c ≠ '"' := fun e => hn.1 (by simp [e])
        have h2 : c ≠ '\'' := fun e => hn.2 (by simp [e])
        simp [h1, h2]
      have hcn : c ≠ '\n' := fun e => hl (by simp [e])
      rw [List.cons_append, lazyStar, List.flatMap_cons, cls, if_neg (by simp [hc]), if_pos (by simp [hcn])]
      rw [List.map_nil, List.nil_append, List.flatMap_map]
      have := ih ⟨fun h => hn.1 (by simp [h]), fun h => hn.2 (by simp [h])⟩ (fun h => hl (by simp [h])) (x ++ [c]) rfl
      simpa using this
  have := gen [] rfl
  simpa [group] using this

theorem linkAt_run (sp : Char → Bool) (tag key s : Str) : linkAt sp tag key s = run (before sp tag key) s group := by
  unfold linkAt run
  rw [head?_flatMap]
  rfl

/-- From the key on. -/
theorem run_key (sp : Char → Bool) (key opened name after : Str) (q : Char) (ho : Opens sp opened)
    (hs : ∃ c t, name = c :: t ∧ c ≠ '{' ∧ sp c = false) (hn : '"' ∉ name ∧ '\'' ∉ name) (hl : '\n' ∉ name) (hq : q = '"' ∨ q = '\'') :
    run (seq (lit key) (seq (star sp) (plus (opening sp)))) (key ++ (opened ++ (name ++ q :: after))) group = some (name, after) := by
  rw [run_seq, run_lit, run_seq]
  obtain ⟨c, t, rfl, hc1, hc2⟩ := hs
  have hgroup := group_eq (c :: t) after q hn hl hq
  have hop : opening sp c = false := by
    cases h : opening sp c with
    | false => rfl
    | true =>
      rcases (opening_iff sp c).1 h with h | h | h | h
      · exact absurd (by simp [h]) hn.1
      · exact absurd (by simp [h]) hn.2
      · exact absurd h hc1
      · rw [hc2] at h; cases h
  have hhead : ∀ x, (c :: t ++ q :: after).head? = some x → opening sp x = false := by
    intro x hx
    simp only [List.cons_append, List.head?_cons, Option.some.injEq] at hx
    subst hx; exact hop
  obtain ⟨hne, hall⟩ := ho
  have hall' : ∀ x ∈ opened, opening sp x = true := fun x hx => (opening_iff sp x).2 (hall x hx)
  -- the run of the spaces and of what opens
  have gen : ∀ (o : Str), o ≠ [] → (∀ x ∈ o, opening sp x = true) →
      run (star sp) (o ++ (c :: t ++ q :: after)) (fun r => run (plus (opening sp)) r group) = some (c :: t, after) := by
    intro o
    induction o with
    | nil => intro h; exact absurd rfl h
    | cons x o ih =>
      intro _ hx
      have hplus : run (plus (opening sp)) (x :: o ++ (c :: t ++ q :: after)) group = some (c :: t, after) :=
        run_plus _ (x :: o) _ _ (by simp) hx hhead _ hgroup
      by_cases hspx : sp x = true
      · have e : run (star sp) (x :: (o ++ (c :: t ++ q :: after))) (fun r => run (plus (opening sp)) r group) =
            (run (star sp) (o ++ (c :: t ++ q :: after)) (fun r => run (plus (opening sp)) r group)).or
              (run (plus (opening sp)) (x :: (o ++ (c :: t ++ q :: after))) group) := by
          unfold run
          rw [star, if_pos hspx, List.findSome?_append, findSome?_map']
          simp
        rw [List.cons_append, e]
        cases o with
        | cons y o =>
          rw [ih (by simp) (fun z hz => hx z (by simp [hz]))]
          rfl
        | nil =>
          have hn0 : run (star sp) ([] ++ (c :: t ++ q :: after)) (fun r => run (plus (opening sp)) r group) = none := by
            apply run_none
            intro m hm
            rw [List.nil_append, List.cons_append, star, if_neg (by simp [hc2]), List.nil_append, List.mem_singleton] at hm
            subst hm
            apply run_none
            intro m hm
            obtain ⟨h1, h2, h3⟩ := plus_mem _ _ _ hm
            cases hm1 : m.1 with
            | nil => exact absurd hm1 h2
            | cons y ys =>
              rw [hm1] at h1 h3
              simp only [List.cons_append, List.cons.injEq] at h1
              have := h3 y (by simp)
              rw [← h1.1, hop] at this; cases this
          rw [hn0]
          simpa using hplus
      · have := run_star sp [] (x :: (o ++ (c :: t ++ q :: after))) (fun r => run (plus (opening sp)) r group) (by simp)
          (by intro y hy; simp only [List.head?_cons, Option.some.injEq] at hy; subst hy; simpa using hspx) (c :: t, after)
          (by simpa using hplus)
        simpa using this
  exact gen opened hne hall'

theorem trailing (sp : Char → Bool) (s : Str) : ∃ a w, s = a ++ w ∧ (∀ c ∈ w, sp c = true) ∧ ∀ c, a.getLast? = some c → sp c = false := by
  have gen : ∀ r : Str, ∃ a w, r.reverse = a ++ w ∧ (∀ c ∈ w, sp c = true) ∧ ∀ c, a.getLast? = some c → sp c = false := by
    intro r
    induction r with
    | nil => exact ⟨[], [], rfl, by simp, by simp⟩
    | cons c t ih =>
      by_cases hc : sp c = true
      · obtain ⟨a, w, h1, h2, h3⟩ := ih
        refine ⟨a, w ++ [c], by simp [h1], ?_, h3⟩
        intro x hx
        rcases List.mem_append.1 hx with hx | hx
        · exact h2 x hx
        · rw [List.mem_singleton.1 hx]; exact hc
      · refine ⟨(c :: t).reverse, [], by simp, by simp, ?_⟩
        intro x hx
        rw [List.getLast?_reverse, List.head?_cons, Option.some.injEq] at hx
        subst hx; simpa using hc
  have := gen s.reverse
  rwa [List.reverse_reverse] at this

theorem linkAt_usual (sp : Char → Bool) (hgt : sp '>' = false) (tag key gap attrs opened name after s : Str) (q : Char)
    (hk0 : ∃ c t, key = c :: t ∧ sp c = false) (h : IsLink sp tag key gap attrs opened name q s) (hu : Usual sp key gap attrs opened name q after) :
    linkAt sp tag key (s ++ after) = some (name, after) := by
  have hkey := run_key sp key opened name after q h.opens hu.starts hu.noQuote h.line h.closed
  obtain ⟨k0, kt, hkk, hk0⟩ := hk0
  have hkhead : ∀ c, (key ++ (opened ++ (name ++ q :: after))).head? = some c → sp c = false := by
    intro c hc
    rw [hkk] at hc
    simp only [List.cons_append, List.head?_cons, Option.some.injEq] at hc
    subst hc; exact hk0
  have hfirst : ∀ c, (attrs ++ (key ++ (opened ++ (name ++ q :: after)))).head? = some c → sp c = false := by
    intro c hc
    apply hu.first c
    rw [hkk] at hc ⊢
    cases attrs with
    | cons x xs => simpa using hc
    | nil => simpa using hc
  rw [linkAt_run, before, run_seq]
  have es : s ++ after = tag ++ (gap ++ (attrs ++ (key ++ (opened ++ (name ++ q :: after))))) := by rw [h.text]; simp
  rw [es, run_lit, run_seq]
  refine run_plus sp gap _ _ h.spaces.1 h.spaces.2 hfirst _ ?_
  rw [run_seq, run_opt]
  by_cases hat : attrs = []
  · have : run (seq (lazyStar fun x => decide (x ≠ '>')) (plus sp)) (key ++ (opened ++ (name ++ q :: after)))
        (fun r => run (seq (lit key) (seq (star sp) (plus (opening sp)))) r group) = none := by
      apply run_none
      intro m hm
      obtain ⟨x, y, hx, hy, rfl⟩ := seq_mem _ _ _ _ hm
      obtain ⟨e1, f1⟩ := lazyStar_mem _ _ _ hx
      obtain ⟨e2, n2, f2⟩ := plus_mem _ _ _ hy
      simp only
      rw [run_seq]
      by_cases hp : key <+: y.2
      · exfalso
        obtain ⟨b, hb⟩ := hp
        obtain ⟨z, w, hz⟩ : ∃ z w, y.1 = z ++ [w] := ⟨y.1.dropLast, y.1.getLast n2, (List.dropLast_concat_getLast n2).symm⟩
        have := hu.alone hat (x.1 ++ z) w b (by
          rw [e2, ← hb, hz] at e1
          simpa using e1) (f2 w (by rw [hz]; simp))
        rcases List.mem_append.1 this with hm | hm
        · have := f1 _ hm; simp at this
        · have := f2 '>' (by rw [hz]; simp [hm])
          rw [hgt] at this; cases this
      · exact run_lit_none _ _ _ hp
    rw [hat, List.nil_append, this, hkey]
    rfl
  · obtain ⟨a0, w, ha, hw, hlast⟩ := trailing sp attrs
    have hwne : w ≠ [] := by
      intro e
      subst e
      rcases h.ends with h0 | ⟨a, c, e, hc⟩
      · exact hat h0
      · rw [List.append_nil] at ha
        have := hlast c (by rw [← ha, e]; simp)
        rw [hc] at this; cases this
    have hmain : run (seq (lazyStar fun x => decide (x ≠ '>')) (plus sp)) (attrs ++ (key ++ (opened ++ (name ++ q :: after))))
        (fun r => run (seq (lit key) (seq (star sp) (plus (opening sp)))) r group) = some (name, after) := by
      rw [run_seq, ha, List.append_assoc]
      refine run_lazy _ a0 _ _ ?_ ?_ _ ?_
      · intro c hc
        have : c ≠ '>' := fun e => h.noEnd (by rw [ha, ← e]; exact List.mem_append_left _ hc)
        simp [this]
      · intro x y hxy hy
        apply run_none
        intro m hm
        obtain ⟨e1, n1, f1⟩ := plus_mem _ _ _ hm
        rw [run_seq]
        by_cases hp : key <+: m.2
        · exfalso
          obtain ⟨b, hb⟩ := hp
          rw [← hb] at e1
          have hylast : sp (y.getLast hy) = false := hlast _ (by rw [hxy, List.getLast?_append, List.getLast?_eq_some_getLast hy]; rfl)
          have hlen : m.1.length < y.length := by
            by_cases hl : m.1.length < y.length
            · exact hl
            · exfalso
              have hpre : y <+: m.1 := List.prefix_of_prefix_length_le (l₃ := y ++ (w ++ (key ++ (opened ++ (name ++ q :: after)))))
                (List.prefix_append _ _) ⟨key ++ b, e1.symm⟩ (by omega)
              have := f1 _ (hpre.subset (List.getLast_mem hy))
              rw [hylast] at this; cases this
          have hpre : m.1 ++ key <+: y ++ (w ++ key) := by
            refine List.prefix_of_prefix_length_le (l₃ := y ++ (w ++ (key ++ (opened ++ (name ++ q :: after))))) ⟨b, by rw [e1]; simp⟩
              ⟨opened ++ (name ++ q :: after), by simp⟩ ?_
            simp only [List.length_append]
            omega
          obtain ⟨b', hb'⟩ := hpre
          obtain ⟨z, v, hz⟩ : ∃ z v, m.1 = z ++ [v] := ⟨m.1.dropLast, m.1.getLast n1, (List.dropLast_concat_getLast n1).symm⟩
          have := hu.once (gap ++ x ++ z) v b' (by
            rw [hz] at hb'
            rw [ha, hxy]
            simp only [List.append_assoc] at hb' ⊢
            rw [← hb']) (f1 v (by rw [hz]; simp))
          subst this
          have := congrArg List.length hb'
          simp only [List.length_append, List.length_nil] at this
          omega
        · exact run_lit_none _ _ _ hp
      · exact run_plus sp w _ _ hwne hw hkhead _ hkey
    rw [hmain]
    rfl

theorem contains_iff (w s : Str) : contains w s = true ↔ w <:+: s := by
  induction s with
  | nil =>
    rw [contains]
    cases w <;> simp
  | cons c t ih =>
    rw [contains, Bool.or_eq_true, ih, List.isPrefixOf_iff_prefix, List.infix_cons_iff]

/-! ### Pages -/

theorem page_links (sp : Char → Bool) (hgt : sp '>' = false) (tag key : Str) (c0 : Char) (t0 : Str) (htag : tag = c0 :: t0) (hc0 : c0 ∉ t0)
    (hk0 : ∃ c t, key = c :: t ∧ sp c = false) (text : Str) (names : List Str) (h : Page sp tag key text names) :
    linksOf sp tag key text = names := by
  induction h with
  | text s hs =>
    have := linksOf_skip sp hgt tag key c0 t0 htag hc0 s [] hs (.inl rfl)
    rw [List.append_nil] at this
    rw [this, linksOf_nil]
  | link plain s gap attrs opened name after q names hp hl hu _ ih =>
    have hs : ∃ t, s = c0 :: t := by rw [hl.text, htag]; exact ⟨_, by simp; rfl⟩
    have hat := linkAt_usual sp hgt tag key gap attrs opened name after s q hk0 hl hu
    obtain ⟨t, rfl⟩ := hs
    rw [List.append_assoc, linksOf_skip sp hgt tag key c0 t0 htag hc0 plain _ hp (.inr (by simp))]
    rw [List.cons_append] at hat ⊢
    rw [linksOf_cons sp hgt, hat]
    simp only
    rw [ih]

theorem locals_filter (ns ms : List Str) : Locals ns ms ↔ ms = ns.filter fun l => !contains "://".toList l := by
  constructor
  · intro h
    induction h with
    | nil => rfl
    | «local» n ns ms hn _ ih =>
      have hc : contains "://".toList n = false := by
        cases hx : contains "://".toList n with
        | false => rfl
        | true => exact absurd ((contains_iff _ _).1 hx) hn
      rw [List.filter_cons, hc, ih]; simp
    | remote n ns ms hn _ ih =>
      have hc := (contains_iff _ _).2 hn
      rw [List.filter_cons, hc, ih]; simp
  · rintro rfl
    induction ns with
    | nil => exact .nil
    | cons n ns ih =>
      rw [List.filter_cons]
      cases hx : contains "://".toList n with
      | true => exact .remote n ns _ ((contains_iff _ _).1 hx) ih
      | false => exact .local n ns _ (fun e => by rw [(contains_iff _ _).2 e] at hx; cases hx) ih

theorem names_stubs (sp : Char → Bool) (hgt : sp '>' = false) (hh : sp 'h' = false) (hs : sp 's' = false) (text : Str) (names : List Str)
    (h : Names sp text names) : stubs sp text = names := by
  obtain ⟨links, imgs, h1, h2, h3⟩ := h
  have e1 := page_links sp hgt "<link".toList "href=".toList '<' "link".toList rfl (by decide) ⟨'h', "ref=".toList, rfl, hh⟩ text links h1
  have e2 := page_links sp hgt "<img".toList "src=".toList '<' "img".toList rfl (by decide) ⟨'s', "rc=".toList, rfl, hs⟩ text imgs h2
  unfold linksOf at e1 e2
  rw [stubs, e1, e2, (locals_filter _ _).1 h3]

/-! ### The files -/

theorem dropWhile_append_all (p : Char → Bool) (a b : Str) (h : ∀ c ∈ a, p c = true) : (a ++ b).dropWhile p = b.dropWhile p := by
  induction a with
  | nil => rfl
  | cons c a ih =>
    rw [List.cons_append, List.dropWhile_cons, if_pos (h c (by simp)), ih (fun x hx => h x (by simp [hx]))]

theorem dropWhile_stop (p : Char → Bool) (s : Str) (h : ∀ c, s.head? = some c → p c = false) : s.dropWhile p = s := by
  cases s with
  | nil => rfl
  | cons c t => rw [List.dropWhile_cons, if_neg (by simp [h c rfl])]

theorem strip_eq (p : Char → Bool) (a rel b : Str) (h : ∀ c ∈ a ++ b, p c = true) (h1 : ∀ c, rel.head? = some c → p c = false)
    (h2 : ∀ c, rel.getLast? = some c → p c = false) : strip p (a ++ rel ++ b) = rel := by
  unfold strip lstrip rstrip
  rw [List.append_assoc, dropWhile_append_all p a _ (fun c hc => h c (by simp [hc]))]
  cases rel with
  | nil =>
    have : ([] ++ b).dropWhile p = [] := by
      have := dropWhile_append_all p b [] (fun c hc => h c (by simp [hc]))
      rw [List.append_nil] at this
      rw [List.nil_append, this]; rfl
    rw [this]; rfl
  | cons c t =>
    rw [dropWhile_stop p (c :: t ++ b) (by intro x hx; exact h1 x (by simpa using hx))]
    rw [List.reverse_append, dropWhile_append_all p _ _ (fun x hx => h x (by simp at hx; simp [hx]))]
    rw [dropWhile_stop p _ (by intro x hx; exact h2 x (by rw [← List.head?_reverse]; exact hx)), List.reverse_reverse]

theorem strip_parts (p : Char → Bool) (s : Str) : ∃ a b, s = a ++ strip p s ++ b ∧ (∀ c ∈ a ++ b, p c = true) ∧
    (∀ c, (strip p s).head? = some c → p c = false) ∧ ∀ c, (strip p s).getLast? = some c → p c = false := by
  obtain ⟨x, b, h1, h2, h3⟩ := trailing p s
  have hx : x = x.takeWhile p ++ x.dropWhile p := (List.takeWhile_append_dropWhile).symm
  have ha : ∀ c ∈ x.takeWhile p, p c = true := by
    intro c hc
    have hgen : ∀ l : Str, ∀ c ∈ l.takeWhile p, p c = true := by
      intro l
      induction l with
      | nil => intro c hc; cases hc
      | cons y l ih =>
        intro c hc
        rw [List.takeWhile_cons] at hc
        by_cases hy : p y = true
        · rw [if_pos hy] at hc
          rcases List.mem_cons.1 hc with rfl | hc
          · exact hy
          · exact ih c hc
        · rw [if_neg hy] at hc; cases hc
    exact hgen x c hc
  have hd : ∀ c, (x.dropWhile p).head? = some c → p c = false := by
    intro c hc
    have hgen : ∀ l : Str, ∀ c, (l.dropWhile p).head? = some c → p c = false := by
      intro l
      induction l with
      | nil => intro c hc; cases hc
      | cons y l ih =>
        intro c hc
        rw [List.dropWhile_cons] at hc
        by_cases hy : p y = true
        · rw [if_pos hy] at hc; exact ih c hc
        · rw [if_neg hy] at hc; cases hc; simpa using hy
    exact hgen x c hc
  have hl : ∀ c, (x.dropWhile p).getLast? = some c → p c = false := by
    intro c hc
    apply h3 c
    rw [hx, List.getLast?_append, hc]
    rfl
  have hall : ∀ c ∈ x.takeWhile p ++ b, p c = true := by
    intro c hc
    rcases List.mem_append.1 hc with hc | hc
    · exact ha c hc
    · exact h2 c hc
  have es : s = x.takeWhile p ++ x.dropWhile p ++ b := by rw [← hx]; exact h1
  have e : strip p s = x.dropWhile p := by
    conv => lhs; rw [es]
    exact strip_eq p _ _ _ hall hd hl
  rw [e]
  exact ⟨_, _, es, hall, hd, hl⟩

theorem slash_iff (x : Option Char) : (∀ c, x = some c → decide (c = '/') = false) ↔ x ≠ some '/' := by
  constructor
  · rintro h rfl
    have := h '/' rfl
    simp at this
  · rintro h c rfl
    simp only [decide_eq_false_iff_not]
    rintro rfl
    exact h rfl

theorem lookup_eq (files : Files) (raise : Bool) (root dir : Path) (stub : Str) (hr : Good root) (hd : Good dir) (ha : dir.abs = false) :
    ∃ a rel b, stub = a ++ rel ++ b ∧ (∀ c ∈ a ++ b, c = '/') ∧ rel.head? ≠ some '/' ∧ rel.getLast? ≠ some '/' ∧
      lookup files raise root dir stub = if (files (div root (div dir (parse rel)))).isSome then .ok ⟨root, div dir (parse rel)⟩
        else if (files (div root (parse rel))).isSome then .ok ⟨root, parse rel⟩
        else if raise then .error .fileNotFound else .error .indexError := by
  obtain ⟨a, b, h1, h2, h3, h4⟩ := strip_parts (fun c => c = '/') stub
  have h3' := (slash_iff _).1 h3
  refine ⟨a, _, b, h1, fun c hc => of_decide_eq_true (h2 c hc), h3', (slash_iff _).1 h4, ?_⟩
  unfold lookup
  have habs : (parse (strip (fun c => c = '/') stub)).abs = false := by
    simp only [parse, decide_eq_false_iff_not]
    exact h3'
  have hg := parse_good (strip (fun c => decide (c = '/')) stub)
  have e1 : mkSource (toStr root) (toStr (div dir (parse (strip (fun c => decide (c = '/')) stub)))) =
      .ok ⟨root, div dir (parse (strip (fun c => decide (c = '/')) stub))⟩ :=
    mkSource_rel root _ hr (good_div _ _ hd hg) (by rw [div, habs]; exact ha)
  have e2 : mkSource (toStr root) (strip (fun c => decide (c = '/')) stub) = .ok ⟨root, parse (strip (fun c => decide (c = '/')) stub)⟩ := by
    simp [mkSource, habs, parse_toStr root hr]
  simp only [e1, e2, SourcePath.full]
  rfl

theorem lookup_leads (files : Files) (raise : Bool) (root dir : Path) (stub : Str) (hr : Good root) (hd : Good dir) (ha : dir.abs = false)
    (p : SourcePath) : lookup files raise root dir stub = .ok p ↔ LeadsTo files root dir stub p := by
  obtain ⟨a, rel, b, h1, h2, h3, h4, h5⟩ := lookup_eq files raise root dir stub hr hd ha
  rw [h5]
  constructor
  · intro h
    by_cases c1 : (files (div root (div dir (parse rel)))).isSome = true
    · rw [if_pos c1] at h
      cases h
      obtain ⟨t, ht⟩ := Option.isSome_iff_exists.1 c1
      exact .dir a b rel t h1 h2 h3 h4 ht
    · rw [if_neg c1] at h
      by_cases c2 : (files (div root (parse rel))).isSome = true
      · rw [if_pos c2] at h
        cases h
        obtain ⟨t, ht⟩ := Option.isSome_iff_exists.1 c2
        exact .root a b rel t h1 h2 h3 h4 (by simpa using c1) ht
      · rw [if_neg c2] at h
        cases raise <;> simp at h
  · intro h
    have huniq : ∀ a' rel' b' : Str, stub = a' ++ rel' ++ b' → (∀ c ∈ a' ++ b', c = '/') → rel'.head? ≠ some '/' → rel'.getLast? ≠ some '/' →
        rel' = rel := by
      intro a' rel' b' g1 g2 g3 g4
      have e1 := strip_eq (fun c => decide (c = '/')) a rel b (fun c hc => decide_eq_true (h2 c hc)) ((slash_iff _).2 h3) ((slash_iff _).2 h4)
      have e2 := strip_eq (fun c => decide (c = '/')) a' rel' b' (fun c hc => decide_eq_true (g2 c hc)) ((slash_iff _).2 g3) ((slash_iff _).2 g4)
      rw [← g1] at e2
      rw [← h1] at e1
      rw [← e1, ← e2]
    cases h with
    | dir a' b' rel' t g1 g2 g3 g4 g5 =>
      obtain rfl := huniq a' rel' b' g1 g2 g3 g4
      rw [if_pos (by rw [g5]; rfl)]
    | root a' b' rel' t g1 g2 g3 g4 g5 g6 =>
      obtain rfl := huniq a' rel' b' g1 g2 g3 g4
      rw [if_neg (by rw [g5]; simp), if_pos (by rw [g6]; rfl)]

theorem lookup_error (files : Files) (raise : Bool) (root dir : Path) (stub : Str) (hr : Good root) (hd : Good dir) (ha : dir.abs = false)
    (e : Err) (h : lookup files raise root dir stub = .error e) : e = if raise then .fileNotFound else .indexError := by
  obtain ⟨a, rel, b, h1, h2, h3, h4, h5⟩ := lookup_eq files raise root dir stub hr hd ha
  rw [h5] at h
  by_cases c1 : (files (div root (div dir (parse rel)))).isSome = true
  · rw [if_pos c1] at h; cases h
  · rw [if_neg c1] at h
    by_cases c2 : (files (div root (parse rel))).isSome = true
    · rw [if_pos c2] at h; cases h
    · rw [if_neg c2] at h
      cases raise
      · simp at h ⊢; exact h.symm
      · simp at h ⊢; exact h.symm

theorem lookups_lead (files : Files) (raise : Bool) (root dir : Path) (hr : Good root) (hd : Good dir) (ha : dir.abs = false)
    (ss : List Str) (ps : List SourcePath) : lookups files raise root dir ss = .ok ps ↔ LeadTo files root dir ss ps := by
  induction ss generalizing ps with
  | nil =>
    rw [lookups]
    constructor
    · intro h; cases h; exact .nil
    · intro h; cases h; rfl
  | cons s ss ih =>
    rw [lookups]
    constructor
    · intro h
      cases h1 : lookup files raise root dir s with
      | error e => rw [h1] at h; cases h
      | ok p =>
        rw [h1] at h
        cases h2 : lookups files raise root dir ss with
        | error e => rw [h2] at h; cases h
        | ok l =>
          rw [h2] at h
          cases h
          exact .cons _ _ _ _ ((lookup_leads files raise root dir s hr hd ha p).1 h1) ((ih l).1 h2)
    · intro h
      cases h with
      | cons _ p _ l h1 h2 => rw [(lookup_leads files raise root dir s hr hd ha p).2 h1, (ih l).2 h2]

theorem lookups_error (files : Files) (raise : Bool) (root dir : Path) (hr : Good root) (hd : Good dir) (ha : dir.abs = false)
    (ss : List Str) : (∀ e, lookups files raise root dir ss = .error e → (e = if raise then .fileNotFound else .indexError) ∧
      ∃ s ∈ ss, ∀ p, ¬ LeadsTo files root dir s p) ∧ ((∃ s ∈ ss, ∀ p, ¬ LeadsTo files root dir s p) → ∃ e, lookups files raise root dir ss = .error e) := by
  induction ss with
  | nil => constructor <;> simp [lookups]
  | cons s ss ih =>
    rw [lookups]
    cases h1 : lookup files raise root dir s with
    | error e =>
      have hno : ∀ p, ¬ LeadsTo files root dir s p := fun p hp => by
        rw [(lookup_leads files raise root dir s hr hd ha p).2 hp] at h1; cases h1
      refine ⟨?_, fun _ => ⟨e, rfl⟩⟩
      intro e' he
      cases he
      exact ⟨lookup_error files raise root dir s hr hd ha e h1, s, by simp, hno⟩
    | ok p =>
      have hp := (lookup_leads files raise root dir s hr hd ha p).1 h1
      cases h2 : lookups files raise root dir ss with
      | error e =>
        rw [h2] at ih
        refine ⟨?_, fun _ => ⟨e, rfl⟩⟩
        intro e' he
        cases he
        obtain ⟨g1, s', g2, g3⟩ := ih.1 e rfl
        exact ⟨g1, s', by simp [g2], g3⟩
      | ok l =>
        rw [h2] at ih
        refine ⟨(fun e he => by cases he), ?_⟩
        rintro ⟨s', hs', hno⟩
        rcases List.mem_cons.1 hs' with rfl | hs'
        · exact absurd hp (hno p)
        · obtain ⟨e, he⟩ := ih.2 ⟨s', hs', hno⟩
          cases he

theorem links_sound (sp : Char → Bool) (hgt : sp '>' = false) (tag key : Str) (n : Nat) (s : Str) (x : Str) (h : x ∈ links sp tag key n s) :
    ∃ pre link post gap attrs opened q, s = pre ++ link ++ post ∧ IsLink sp tag key gap attrs opened x q link := by
  induction n generalizing s with
  | zero => simp [links] at h
  | succ n ih =>
    cases s with
    | nil => simp [links] at h
    | cons c t =>
      rw [links] at h
      cases hl : linkAt sp tag key (c :: t) with
      | none =>
        rw [hl] at h
        obtain ⟨pre, link, post, gap, attrs, opened, q, h1, h2⟩ := ih t h
        exact ⟨c :: pre, link, post, gap, attrs, opened, q, by rw [h1]; rfl, h2⟩
      | some gr =>
        obtain ⟨g, r⟩ := gr
        rw [hl] at h
        obtain ⟨gap, attrs, opened, q, y, h1, h2⟩ := linkAt_sound sp hgt tag key _ _ _ hl
        rcases List.mem_cons.1 h with rfl | h
        · exact ⟨[], y, r, gap, attrs, opened, q, by rw [h2]; rfl, h1⟩
        · obtain ⟨pre, link, post, gap, attrs, opened, q, h3, h4⟩ := ih r h
          exact ⟨y ++ pre, link, post, gap, attrs, opened, q, by rw [h2, h3]; simp, h4⟩

/-! ### The scan -/

theorem scanOne_page (sp : Char → Bool) (files : Files) (raise : Bool) (p : PyPath) (root dir : Path) (text : Str)
    (h : IsPage files p root dir text) : scanOne sp files raise p = lookups files raise root dir (stubs sp text) := by
  obtain ⟨⟨e, he, hs⟩, hf, hr⟩ := h
  have hext : ¬ suffix p.full ∉ extensions := fun hn => hn (by rw [hs]; exact he)
  rcases hr with ⟨s, rfl, rfl, rfl⟩ | ⟨t, rfl, rfl, rfl⟩
  · rw [scanOne]
    · simp only [if_neg hext, hf, rootOf]; rfl
    · intro p hp; cases hp
  · rw [scanOne]
    · simp only [if_neg hext, hf, rootOf]; rfl
    · intro p hp; cases hp

theorem scanOne_other (sp : Char → Bool) (files : Files) (raise : Bool) (p : PyPath) (hg : GoodPy p)
    (h : ∀ root dir text, ¬ IsPage files p root dir text) : scanOne sp files raise p = .ok [] := by
  cases p with
  | plain q => rfl
  | untracked q => exact absurd hg (by simp [GoodPy])
  | source s =>
    rw [scanOne]
    · by_cases hext : suffix (PyPath.source s).full ∈ extensions
      · rw [if_neg (fun hn => hn hext)]
        cases hf : files (PyPath.source s).full with
        | none => rfl
        | some text => exact absurd ⟨⟨_, hext, rfl⟩, hf, .inl ⟨s, rfl, rfl, rfl⟩⟩ (h _ _ text)
      · rw [if_pos hext]
    · intro p hp; cases hp
  | target t =>
    rw [scanOne]
    · by_cases hext : suffix (PyPath.target t).full ∈ extensions
      · rw [if_neg (fun hn => hn hext)]
        cases hf : files (PyPath.target t).full with
        | none => rfl
        | some text => exact absurd ⟨⟨_, hext, rfl⟩, hf, .inr ⟨t, rfl, rfl, rfl⟩⟩ (h _ _ text)
      · rw [if_pos hext]
    · intro p hp; cases hp

theorem page_good (files : Files) (p : PyPath) (hg : GoodPy p) (root dir : Path) (text : Str) (h : IsPage files p root dir text) :
    Good root ∧ Good dir ∧ dir.abs = false := by
  obtain ⟨-, -, hr⟩ := h
  rcases hr with ⟨s, rfl, rfl, rfl⟩ | ⟨t, rfl, rfl, rfl⟩
  · exact ⟨hg.1, good_parent _ hg.2.1, hg.2.2⟩
  · exact ⟨good_div _ _ hg.1 hg.2.1, good_parent _ hg.2.2.1, hg.2.2.2.1⟩

theorem page_unique (files : Files) (p : PyPath) (r d r' d' : Path) (t t' : Str) (h : IsPage files p r d t) (h' : IsPage files p r' d' t') :
    r' = r ∧ d' = d ∧ t' = t := by
  obtain ⟨-, h1, h2⟩ := h
  obtain ⟨-, g1, g2⟩ := h'
  rw [h1] at g1
  refine ⟨?_, ?_, (Option.some.inj g1).symm⟩
  · rcases h2 with ⟨s, rfl, rfl, rfl⟩ | ⟨s, rfl, rfl, rfl⟩ <;> rcases g2 with ⟨s', e, rfl, rfl⟩ | ⟨s', e, rfl, rfl⟩ <;> cases e <;> rfl
  · rcases h2 with ⟨s, rfl, rfl, rfl⟩ | ⟨s, rfl, rfl, rfl⟩ <;> rcases g2 with ⟨s', e, rfl, rfl⟩ | ⟨s', e, rfl, rfl⟩ <;> cases e <;> rfl

theorem scan_iff (sp : Char → Bool) (files : Files) (raise : Bool) (names : Str → List Str → Prop) (ps : List PyPath) (hg : ∀ p ∈ ps, GoodPy p)
    (hn : ∀ text l, names text l → stubs sp text = l)
    (hall : ∀ p ∈ ps, ∀ root dir text, IsPage files p root dir text → ∃ l, names text l) (ls : List SourcePath) :
    scan sp files raise ps = .ok ls ↔ Scanned files names ps ls := by
  induction ps generalizing ls with
  | nil =>
    rw [scan]
    constructor
    · intro h; cases h; exact .nil
    · intro h; cases h; rfl
  | cons p ps ih =>
    have ih := ih (fun q hq => hg q (by simp [hq])) (fun q hq => hall q (by simp [hq]))
    have hgp := hg p (by simp)
    rw [scan]
    constructor
    · intro h
      cases h1 : scanOne sp files raise p with
      | error e => rw [h1] at h; cases h
      | ok l =>
        rw [h1] at h
        cases h2 : scan sp files raise ps with
        | error e => rw [h2] at h; cases h
        | ok l2 =>
          rw [h2] at h
          cases h
          by_cases hp : ∃ root dir text, IsPage files p root dir text
          · obtain ⟨root, dir, text, hp⟩ := hp
            obtain ⟨ns, hns⟩ := hall p (by simp) root dir text hp
            obtain ⟨g1, g2, g3⟩ := page_good files p hgp root dir text hp
            rw [scanOne_page sp files raise p root dir text hp, hn _ _ hns, lookups_lead files raise root dir g1 g2 g3] at h1
            exact .page p root dir text ns l l2 ps hp hns h1 ((ih l2).1 h2)
          · have hp' : ∀ root dir text, ¬ IsPage files p root dir text := fun r d t ht => hp ⟨r, d, t, ht⟩
            rw [scanOne_other sp files raise p hgp hp'] at h1
            cases h1
            exact .other p ps l2 hp' ((ih l2).1 h2)
    · intro h
      cases h with
      | page _ root dir text ns l l2 _ hp hns hl h2 =>
        obtain ⟨g1, g2, g3⟩ := page_good files p hgp root dir text hp
        rw [scanOne_page sp files raise p root dir text hp, hn _ _ hns, (lookups_lead files raise root dir g1 g2 g3 _ _).2 hl, (ih l2).2 h2]
      | other _ _ _ hp h2 =>
        rw [scanOne_other sp files raise p hgp hp, (ih ls).2 h2]
        rfl

theorem scan_error (sp : Char → Bool) (files : Files) (raise : Bool) (ps : List PyPath) (hg : ∀ p ∈ ps, GoodPy p) :
    (∀ e, scan sp files raise ps = .error e → (e = if raise then .fileNotFound else .indexError) ∧
      ∃ p ∈ ps, ∃ root dir text, IsPage files p root dir text ∧ ∃ s ∈ stubs sp text, ∀ x, ¬ LeadsTo files root dir s x) ∧
    ((∃ p ∈ ps, ∃ root dir text, IsPage files p root dir text ∧ ∃ s ∈ stubs sp text, ∀ x, ¬ LeadsTo files root dir s x) →
      ∃ e, scan sp files raise ps = .error e) := by
  induction ps with
  | nil => constructor <;> simp [scan]
  | cons p ps ih =>
    have ih := ih (fun q hq => hg q (by simp [hq]))
    have hgp := hg p (by simp)
    rw [scan]
    have hone : (∀ e, scanOne sp files raise p = .error e → (e = if raise then .fileNotFound else .indexError) ∧
        ∃ root dir text, IsPage files p root dir text ∧ ∃ s ∈ stubs sp text, ∀ x, ¬ LeadsTo files root dir s x) ∧
        ((∃ root dir text, IsPage files p root dir text ∧ ∃ s ∈ stubs sp text, ∀ x, ¬ LeadsTo files root dir s x) →
          ∃ e, scanOne sp files raise p = .error e) := by
      by_cases hp : ∃ root dir text, IsPage files p root dir text
      · obtain ⟨root, dir, text, hp⟩ := hp
        obtain ⟨g1, g2, g3⟩ := page_good files p hgp root dir text hp
        rw [scanOne_page sp files raise p root dir text hp]
        obtain ⟨k1, k2⟩ := lookups_error files raise root dir g1 g2 g3 (stubs sp text)
        refine ⟨fun e he => ⟨(k1 e he).1, root, dir, text, hp, (k1 e he).2⟩, ?_⟩
        rintro ⟨r', d', t', hp', hs⟩
        obtain ⟨rfl, rfl, rfl⟩ := page_unique files p _ _ _ _ _ _ hp hp'
        exact k2 hs
      · have hp' : ∀ root dir text, ¬ IsPage files p root dir text := fun r d t ht => hp ⟨r, d, t, ht⟩
        rw [scanOne_other sp files raise p hgp hp']
        refine ⟨(fun e he => by cases he), ?_⟩
        rintro ⟨r', d', t', hx, -⟩
        exact absurd hx (hp' _ _ _)
    cases h1 : scanOne sp files raise p with
    | error e =>
      rw [h1] at hone
      refine ⟨?_, fun _ => ⟨e, rfl⟩⟩
      intro e' he
      cases he
      obtain ⟨g1, g2⟩ := hone.1 e rfl
      exact ⟨g1, p, by simp, g2⟩
    | ok l =>
      rw [h1] at hone
      cases h2 : scan sp files raise ps with
      | error e =>
        rw [h2] at ih
        refine ⟨?_, fun _ => ⟨e, rfl⟩⟩
        intro e' he
        cases he
        obtain ⟨g1, p', g2, g3⟩ := ih.1 e rfl
        exact ⟨g1, p', by simp [g2], g3⟩
      | ok l2 =>
        rw [h2] at ih
        refine ⟨(fun e he => by cases he), ?_⟩
        rintro ⟨p', hp', h⟩
        rcases List.mem_cons.1 hp' with rfl | hp'
        · obtain ⟨e, he⟩ := hone.2 h; cases he
        · obtain ⟨e, he⟩ := ih.2 ⟨p', hp', h⟩; cases he

end Verif.Scanner
