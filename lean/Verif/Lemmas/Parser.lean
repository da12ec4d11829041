import Verif.Spec.Parser

set_option linter.unusedSimpArgs false
set_option linter.unusedVariables false

namespace Verif.Parser

open Spec

/-! ### The brace loop -/

theorem braceLoop_append (level : Nat) (s : Str) :
    (braceLoop level s).2.1 ++ (braceLoop level s).2.2 = s := by
  induction s generalizing level with
  | nil => simp [braceLoop]
  | cons c cs ih =>
    simp only [braceLoop]
    split
    · simp [ih]
    · simp

/-- Running counters: the level after walking `p` from `level`. -/
theorem braceLoop_walk (level : Nat) (p s : Str)
    (h1 : ∀ q, q <+: p → q ≠ p → q.count '}' < level + q.count '{')
    (h2 : ∀ q, q <+: p → q ≠ p → level + q.count '{' < q.count '}' + 10) :
    braceLoop level (p ++ s) =
      ((braceLoop (level + p.count '{' - p.count '}') s).1,
       p ++ (braceLoop (level + p.count '{' - p.count '}') s).2.1,
       (braceLoop (level + p.count '{' - p.count '}') s).2.2) := by
  induction p generalizing level with
  | nil => simp
  | cons c cs ih =>
    have a1 := h1 [] (by simp) (by simp)
    have a2 := h2 [] (by simp) (by simp)
    simp at a1 a2
    have hc : 0 < level ∧ level < 10 := ⟨a1, a2⟩
    simp only [List.cons_append, braceLoop, hc, and_self, if_true]
    have key : ∀ q, q <+: cs → q ≠ cs → ((c :: q) <+: (c :: cs)) ∧ c :: q ≠ c :: cs := by
      intro q hq hne
      exact ⟨by simpa using hq, by simpa using hne⟩
    by_cases h : c = '}'
    · subst h
      simp only [if_true]
      rw [ih]
      · simp only [List.count_cons]
        have : level - 1 + List.count '{' cs - List.count '}' cs
          = level + (List.count '{' cs + if ('}' == '{') = true then 1 else 0) -
            (List.count '}' cs + if ('}' == '}') = true then 1 else 0) := by
          simp; omega
        rw [this]
      · intro q hq hne
        have := h1 _ (key q hq hne).1 (key q hq hne).2
        simp [List.count_cons] at this
        omega
      · intro q hq hne
        have := h2 _ (key q hq hne).1 (key q hq hne).2
        simp [List.count_cons] at this
        omega
    · by_cases h' : c = '{'
      · subst h'
        simp only [show ('{' = '}') = False by simp, if_false, if_true]
        rw [ih]
        · have : level + 1 + List.count '{' cs - List.count '}' cs
            = level + List.count '{' ('{' :: cs) - List.count '}' ('{' :: cs) := by
            simp [List.count_cons]; omega
          rw [this]
        · intro q hq hne
          have := h1 _ (key q hq hne).1 (key q hq hne).2
          simp [List.count_cons] at this
          omega
        · intro q hq hne
          have := h2 _ (key q hq hne).1 (key q hq hne).2
          simp [List.count_cons] at this
          omega
      · simp only [h, h', if_false]
        rw [ih]
        · have : level + List.count '{' cs - List.count '}' cs
            = level + List.count '{' (c :: cs) - List.count '}' (c :: cs) := by
            simp [List.count_cons, h, h']
          rw [this]
        · intro q hq hne
          have := h1 _ (key q hq hne).1 (key q hq hne).2
          simp [List.count_cons, h, h'] at this
          omega
        · intro q hq hne
          have := h2 _ (key q hq hne).1 (key q hq hne).2
          simp [List.count_cons, h, h'] at this
          omega

theorem braceLoop_zero (s : Str) : braceLoop 0 s = (0, [], s) := by
  cases s <;> simp [braceLoop]

theorem braceLoop_of_closes (after body rest : Str) (h : Closes after body rest) :
    braceLoop 1 after = (0, body ++ ['}'], rest) := by
  obtain ⟨rfl, ⟨hb1, hb2⟩, hd⟩ := h
  have : body ++ '}' :: rest = (body ++ ['}']) ++ rest := by simp
  rw [this, braceLoop_walk]
  · have : 1 + List.count '{' (body ++ ['}']) - List.count '}' (body ++ ['}']) = 0 := by
      simp [List.count_append]; omega
    rw [this, braceLoop_zero]; simp
  · intro q hq hne
    have hq' : q <+: body := by
      rcases List.prefix_concat_iff.1 hq with h | h
      · exact absurd h hne
      · exact h
    have := hb2 q hq'
    omega
  · intro q hq hne
    have hq' : q <+: body := by
      rcases List.prefix_concat_iff.1 hq with h | h
      · exact absurd h hne
      · exact h
    have := hd q hq'
    omega

theorem closes_of_braceLoop_aux (level : Nat) (s w rest : Str) (hl : 0 < level)
    (h : braceLoop level s = (0, w, rest)) :
    ∃ body, w = body ++ ['}'] ∧ s = body ++ '}' :: rest ∧
      level + body.count '{' = body.count '}' + 1 ∧
      ∀ q, q <+: body → q.count '}' < level + q.count '{' ∧
        level + q.count '{' < q.count '}' + 10 := by
  induction s generalizing level w with
  | nil => simp [braceLoop] at h; omega
  | cons c cs ih =>
    simp only [braceLoop] at h
    split at h
    · rename_i hr
      generalize hl' : (if c = '}' then level - 1 else if c = '{' then level + 1 else level) = l' at h
      generalize hb : braceLoop l' cs = b at h
      obtain ⟨b0, b1, b2⟩ := b
      simp at h
      obtain ⟨rfl, rfl, rfl⟩ := h
      by_cases hz : l' = 0
      · subst hz
        have : c = '}' ∧ level = 1 := by
          split at hl'
          · exact ⟨by assumption, by omega⟩
          · split at hl' <;> omega
        obtain ⟨rfl, rfl⟩ := this
        rw [braceLoop_zero] at hb
        simp at hb
        obtain ⟨rfl, rfl⟩ := hb
        exact ⟨[], by simp⟩
      · obtain ⟨body, rfl, rfl, h1, h2⟩ := ih l' b1 (by omega) hb
        refine ⟨c :: body, by simp, by simp, ?_, ?_⟩
        · by_cases hc : c = '}'
          · subst hc; simp at hl'; simp [List.count_cons]; omega
          · by_cases hc' : c = '{'
            · subst hc'; simp at hl'; simp [List.count_cons]; omega
            · simp [hc, hc'] at hl'; simp [List.count_cons, hc, hc']; omega
        · intro q hq
          cases q with
          | nil => simp; omega
          | cons x q =>
            simp at hq
            obtain ⟨rfl, hq⟩ := hq
            have := h2 q hq
            by_cases hc : x = '}'
            · subst hc; simp at hl'; simp [List.count_cons]; omega
            · by_cases hc' : x = '{'
              · subst hc'; simp at hl'; simp [List.count_cons]; omega
              · simp [hc, hc'] at hl'; simp [List.count_cons, hc, hc']; omega
    · simp at h; omega

theorem closes_of_braceLoop (s w rest : Str) (h : braceLoop 1 s = (0, w, rest)) :
    ∃ body, w = body ++ ['}'] ∧ Closes s body rest := by
  obtain ⟨body, rfl, rfl, h1, h2⟩ := closes_of_braceLoop_aux 1 s w rest (by omega) h
  refine ⟨body, rfl, rfl, ⟨by omega, ?_⟩, ?_⟩
  · intro p hp; have := h2 p hp; omega
  · intro p hp; have := h2 p hp; omega

/-- The brace loop fails exactly when there is no matching brace. -/
theorem braceLoop_pos_iff (s : Str) :
    (braceLoop 1 s).1 > 0 ↔ ¬ ∃ body rest, Closes s body rest := by
  constructor
  · rintro h ⟨body, rest, hc⟩
    rw [braceLoop_of_closes _ _ _ hc] at h
    simp at h
  · intro h
    by_cases h0 : (braceLoop 1 s).1 = 0
    · exfalso
      apply h
      obtain ⟨body, _, hc⟩ := closes_of_braceLoop s (braceLoop 1 s).2.1 (braceLoop 1 s).2.2
        (by rw [← h0])
      exact ⟨_, _, hc⟩
    · omega

/-! ### The tag opening -/

theorem span_loop_eq (p : Char → Bool) (l acc : Str) :
    List.span.loop p l acc = (acc.reverse ++ l.takeWhile p, l.dropWhile p) := by
  induction l generalizing acc with
  | nil => simp [List.span.loop]
  | cons a l ih =>
    simp only [List.span.loop, List.takeWhile_cons, List.dropWhile_cons]
    split <;> simp_all

theorem span_eq (p : Char → Bool) (l : Str) : l.span p = (l.takeWhile p, l.dropWhile p) := by
  simp [List.span, span_loop_eq]

theorem takeWhile_append_stop (p : Char → Bool) (w r : Str) (hw : ∀ x ∈ w, p x = true)
    (hr : ∀ x t, r = x :: t → p x = false) :
    (w ++ r).takeWhile p = w ∧ (w ++ r).dropWhile p = r := by
  induction w with
  | nil =>
    cases r with
    | nil => simp
    | cons x t => simp [List.takeWhile_cons, List.dropWhile_cons, hr x t rfl]
  | cons a w ih =>
    have ha : p a = true := hw a (by simp)
    have := ih (fun x hx => hw x (by simp [hx]))
    simp [List.takeWhile_cons, List.dropWhile_cons, ha, this]

theorem dropWhile_head (p : Char → Bool) (l : Str) (x : Char) (t : Str)
    (h : l.dropWhile p = x :: t) : p x = false := by
  induction l with
  | nil => simp at h
  | cons a l ih =>
    simp only [List.dropWhile_cons] at h
    split at h
    · exact ih h
    · simp at h; obtain ⟨rfl, rfl⟩ := h; simp_all

theorem takeWhile_all (p : Char → Bool) (l : Str) : ∀ x ∈ l.takeWhile p, p x = true := by
  induction l with
  | nil => simp
  | cons a l ih =>
    simp only [List.takeWhile_cons]
    split
    · intro x hx
      simp at hx
      rcases hx with rfl | hx
      · assumption
      · exact ih x hx
    · simp

theorem matchAttrs_some (b r : Str) (h : IsAttrBody b) :
    matchAttrs ('[' :: b ++ ']' :: r) = (some ('[' :: b ++ [']']), r) := by
  obtain ⟨h1, h2⟩ := h
  have := takeWhile_append_stop (fun x => decide (x ≠ ']')) b (']' :: r)
    (by intro x hx; simp; rintro rfl; exact h2 hx) (by simp)
  simp only [List.cons_append, matchAttrs, span_eq, this]
  cases b with
  | nil => exact absurd rfl h1
  | cons b0 b => simp

theorem matchAttrs_none (s : Str)
    (h : ∀ b r, s = '[' :: b ++ ']' :: r → ¬ IsAttrBody b) : matchAttrs s = (none, s) := by
  unfold matchAttrs
  split
  · rename_i cs
    rw [span_eq]
    split
    · rename_i b body r heq
      exfalso
      simp at heq
      apply h (b :: body) r
      · rw [← List.takeWhile_append_dropWhile (p := fun x => decide (x ≠ ']')) (l := cs)]
        simp [heq]
      · constructor
        · simp
        · have := takeWhile_all (fun x => decide (x ≠ ']')) cs
          simp [heq] at this
          simp
          exact ⟨fun h => this.1 h.symm, fun h => this.2 _ h rfl⟩
    · rfl
  · rfl

theorem matchAttrs_cases (s : Str) :
    (∃ b r, s = '[' :: b ++ ']' :: r ∧ IsAttrBody b ∧
        matchAttrs s = (some ('[' :: b ++ [']']), r)) ∨
    ((∀ b r, s = '[' :: b ++ ']' :: r → ¬ IsAttrBody b) ∧ matchAttrs s = (none, s)) := by
  by_cases h : ∃ b r, s = '[' :: b ++ ']' :: r ∧ IsAttrBody b
  · obtain ⟨b, r, rfl, hb⟩ := h
    exact .inl ⟨b, r, rfl, hb, matchAttrs_some b r hb⟩
  · have h' : ∀ b r, s = '[' :: b ++ ']' :: r → ¬ IsAttrBody b :=
      fun b r e hb => h ⟨b, r, e, hb⟩
    exact .inr ⟨h', matchAttrs_none s h'⟩

/-- The text of an optional opening brace. -/
def braceStr (b : Bool) : Str := if b then ['{'] else []

theorem matchOpenBrace_spec (s : Str) :
    s = braceStr (matchOpenBrace s).1 ++ (matchOpenBrace s).2 ∧
    ((matchOpenBrace s).1 = false → ∀ r, (matchOpenBrace s).2 ≠ '{' :: r) := by
  unfold matchOpenBrace
  split
  · simp [braceStr]
  · rename_i h
    simp [braceStr]
    exact fun r hr => h r hr

@[simp] theorem isAlnum_eq (c : Char) : isAlnum c = c.isAlphanum := by
  unfold isAlnum Char.isAlphanum Char.isAlpha Char.isUpper Char.isLower Char.isDigit
  rw [Bool.decide_and]
  rfl

theorem NoTag.nil : NoTag [] := by intro a c b h; simp at h

theorem noTag_cons_iff (x : Char) (s : Str) :
    NoTag (x :: s) ↔ (x = '@' → ∀ c b, s = c :: b → c.isAlphanum = false) ∧ NoTag s := by
  constructor
  · intro h
    refine ⟨?_, ?_⟩
    · rintro rfl c b rfl; exact h [] c b rfl
    · intro a c b e; exact h (x :: a) c b (by simp [e])
  · rintro ⟨h1, h2⟩ a c b e
    cases a with
    | nil => simp at e; exact h1 e.1 c b e.2
    | cons y a => simp at e; exact h2 a c b e.2

theorem searchOpen_none (isWord : Char → Bool) (s : Str) :
    searchOpen isWord s = none ↔ NoTag s := by
  fun_induction searchOpen isWord s with
  | case1 c cs hc w r hs attrs r' ha opened r'' ho =>
    simp only [reduceCtorEq, false_iff]
    intro h
    have := h [] c cs rfl
    simp [this] at hc
  | case2 c cs hc ih =>
    rw [noTag_cons_iff]
    simp only [Option.map_eq_none_iff, ih]
    constructor
    · intro h; exact ⟨by rintro _ c' b e; simp at e; rw [← e.1]; simpa using hc, h⟩
    · exact fun h => h.2
  | case3 c cs hne ih =>
    rw [noTag_cons_iff]
    simp only [Option.map_eq_none_iff, ih]
    constructor
    · intro h; refine ⟨?_, h⟩
      rintro rfl c' b rfl
      exact absurd rfl (hne c' b rfl)
    · exact fun h => h.2
  | case4 => simp [NoTag.nil]

theorem searchOpen_some (isWord : Char → Bool) (s : Str) (m : OpenMatch)
    (h : searchOpen isWord s = some m) :
    s = m.pre ++ '@' :: m.name ++ m.attrs.getD [] ++ (braceStr m.opened ++ m.rest) ∧
    NoTag m.pre ∧ IsHead isWord m.name m.attrs (braceStr m.opened ++ m.rest) ∧
    (m.opened = false → ∀ r, m.rest ≠ '{' :: r) := by
  fun_induction searchOpen isWord s generalizing m with
  | case1 c cs hc w r hs attrs r' ha opened r'' ho =>
    simp at h
    subst h
    simp only
    rw [span_eq] at hs
    simp at hs
    obtain ⟨rfl, rfl⟩ := hs
    have hob := matchOpenBrace_spec r'
    rw [ho] at hob
    simp only at hob
    rw [← hob.1]
    have hcs := List.takeWhile_append_dropWhile (p := isWord) (l := cs)
    rcases matchAttrs_cases (cs.dropWhile isWord) with ⟨b, r, e, hb, e2⟩ | ⟨hn, e2⟩
    · rw [ha] at e2
      simp at e2
      obtain ⟨rfl, rfl⟩ := e2
      refine ⟨?_, NoTag.nil, ⟨⟨c, _, rfl, by simpa using hc, takeWhile_all _ _⟩, ?_, ?_, ?_⟩, hob.2⟩
      · conv => lhs; rw [← hcs, e]
        simp
      · intro a h; simp at h; exact ⟨b, by simp [← h], hb⟩
      · intro x t ht
        simp at ht
        apply dropWhile_head isWord cs x t
        rw [e, ← ht.1, ← ht.2]; simp
      · simp
    · rw [ha] at e2
      simp at e2
      obtain ⟨rfl, rfl⟩ := e2
      refine ⟨?_, NoTag.nil, ⟨⟨c, _, rfl, by simpa using hc, takeWhile_all _ _⟩, ?_, ?_, ?_⟩, hob.2⟩
      · simp [hcs]
      · simp
      · intro x t ht
        simp at ht
        exact dropWhile_head isWord cs x t ht
      · intro _; exact hn
  | case2 c cs hc ih =>
    simp at h
    obtain ⟨m', hm', rfl⟩ := h
    have := ih m' hm'
    refine ⟨by rw [this.1]; simp, ?_, this.2.2⟩
    rw [noTag_cons_iff]
    refine ⟨?_, this.2.1⟩
    intro _ c' b e
    have e' := this.1
    rw [e] at e'
    simp at e'
    rw [← e'.1]; simpa using hc
  | case3 c cs hne ih =>
    simp at h
    obtain ⟨m', hm', rfl⟩ := h
    have := ih m' hm'
    refine ⟨by rw [this.1]; simp, ?_, this.2.2⟩
    rw [noTag_cons_iff]
    refine ⟨?_, this.2.1⟩
    rintro rfl c' b e
    have e' := this.1
    rw [e] at e'
    simp at e'
    exact (hne _ _ rfl e').elim
  | case4 => simp at h

/-- A tag spelled out in the text is found, with exactly its parts. -/
theorem searchOpen_of_head (isWord : Char → Bool) (pre name : Str) (attrs : Option Str)
    (opened : Bool) (rest : Str) (hp : NoTag pre)
    (hh : IsHead isWord name attrs (braceStr opened ++ rest))
    (ho : opened = false → ∀ r, rest ≠ '{' :: r) :
    searchOpen isWord (pre ++ '@' :: name ++ attrs.getD [] ++ (braceStr opened ++ rest)) =
      some { pre := pre, name := name, attrs := attrs, opened := opened, rest := rest } := by
  induction pre with
  | nil =>
    obtain ⟨c, w, rfl, hc, hw⟩ := hh.name_ok
    have hst := takeWhile_append_stop isWord w (attrs.getD [] ++ (braceStr opened ++ rest)) hw
      (fun x t e => hh.name_max x t e)
    have hma : matchAttrs (attrs.getD [] ++ (braceStr opened ++ rest)) =
        (attrs, braceStr opened ++ rest) := by
      cases attrs with
      | none => exact matchAttrs_none _ (hh.attrs_max rfl)
      | some a =>
        obtain ⟨b, rfl, hb⟩ := hh.attrs_ok a rfl
        have := matchAttrs_some b (braceStr opened ++ rest) hb
        simpa using this
    have hmo : matchOpenBrace (braceStr opened ++ rest) = (opened, rest) := by
      cases opened with
      | true => simp [braceStr, matchOpenBrace]
      | false =>
        simp [braceStr, matchOpenBrace]
        split
        · rename_i r; exact absurd rfl (ho rfl r)
        · rfl
    simp only [List.nil_append, List.cons_append, List.append_assoc, searchOpen, isAlnum_eq, hc, if_true,
      span_eq, hst, hma, hmo]
  | cons x pre ih =>
    rw [noTag_cons_iff] at hp
    have ih := ih hp.2
    by_cases hx : x = '@'
    · subst hx
      cases pre with
      | nil =>
        have : ('@').isAlphanum = false := by decide
        simp only [List.nil_append] at ih
        simp only [List.cons_append, List.nil_append, searchOpen, isAlnum_eq, this] at ih ⊢
        simp only [Bool.false_eq_true, if_false] at ih ⊢
        rw [ih]; simp
      | cons y pre =>
        have hy := hp.1 rfl y pre rfl
        simp only [List.cons_append] at ih ⊢
        rw [searchOpen]
        simp only [isAlnum_eq, hy, Bool.false_eq_true, if_false]
        rw [ih]; simp
    · simp only [List.cons_append] at ih ⊢
      rw [searchOpen]
      · rw [ih]; simp
      · intro c cs h _; exact hx h

/-! ### Grouping strings -/

/-- No two strings next to each other. -/
def noAdj : List Val → Bool
  | .str _ :: .str _ :: _ => false
  | _ :: r => noAdj r
  | [] => true

/-- Content `group_strings` leaves as it is. -/
def Tidy (l : List Val) : Prop :=
  noAdj l = true ∧ ∀ v ∈ l, v.truthy = true ∧ groupStrings v = v ∧ ∀ l', v ≠ .list l'

theorem joinAdj_of_noAdj (l : List Val) (h : noAdj l = true) : joinAdj l = l := by
  fun_induction noAdj l with
  | case1 => simp at h
  | case2 v r hne ih =>
    have ih := ih h
    cases v with
    | str s =>
      simp only [joinAdj, ih]
      cases r with
      | nil => rfl
      | cons w r =>
        cases w with
        | str t => exact absurd rfl (hne s t r rfl)
        | _ => rfl
    | _ => simp [joinAdj, ih]
  | case3 => simp [joinAdj]

theorem groupItems_of_fixed (l : List Val)
    (h : ∀ v ∈ l, v.truthy = true ∧ groupStrings v = v) : groupItems l = l := by
  induction l with
  | nil => simp [groupItems]
  | cons v l ih =>
    have hv := h v (by simp)
    simp [groupItems, hv, ih (fun w hw => h w (by simp [hw]))]

theorem groupStrings_tidy (l : List Val) (h : Tidy l) : groupStrings (.list l) = .list l := by
  rw [groupStrings, groupItems_of_fixed l (fun v hv => ⟨(h.2 v hv).1, (h.2 v hv).2.1⟩),
    joinAdj_of_noAdj l h.1]

theorem finish_tidy (l : List Val) (h : Tidy l) : finish l = simplify l := by
  simp [finish, groupStrings_tidy l h]

theorem groupStrings_simplify (l : List Val) (h : Tidy l) :
    groupStrings (simplify l) = simplify l := by
  unfold simplify
  split
  · simp [groupStrings]
  · rename_i v; exact (h.2 v (by simp)).2.1
  · exact groupStrings_tidy l h

theorem truthy_tag_simplify (n a b) (l : List Val) (h : Tidy l) :
    (Val.tag n a b (simplify l)).truthy = true := by
  unfold simplify
  split
  · simp [Val.truthy]
  · rename_i v
    have := (h.2 v (by simp)).2.2
    cases v with
    | list l' => exact absurd rfl (this l')
    | str s => simp [Val.truthy]
    | tag => simp [Val.truthy]
  · rename_i h1 h2
    cases l with
    | nil => exact absurd rfl (h1)
    | cons v l => simp [Val.truthy]

/-! ### One step of the parser -/

/-- The two ways a successful step of `parseItems` can go. -/
theorem parseItems_ok (isWord : Char → Bool) (raw : Str → Bool) (fuel : Nat) (text : Str)
    (items : List Val) (h : parseItems isWord raw (fuel + 1) text = .ok items) :
    (NoTag text ∧ items = if text = [] then [] else [.str text]) ∨
    ∃ pre name attrs opened body rest content more,
      NoTag pre ∧
      text = pre ++ '@' :: name ++ attrs.getD [] ++
        (if opened then '{' :: body ++ ['}'] else []) ++ rest ∧
      (opened = true → Balanced body ∧ DepthLE 8 body) ∧
      (opened = false → body = [] ∧ ∀ r, rest ≠ '{' :: r) ∧
      IsHead isWord name attrs ((if opened then '{' :: body ++ ['}'] else []) ++ rest) ∧
      ((raw name = true ∧ content = .str body) ∨
        ∃ inner, raw name = false ∧ parseItems isWord raw fuel body = .ok inner ∧
          content = finish inner) ∧
      parseItems isWord raw fuel rest = .ok more ∧
      items = (if pre = [] then [] else [.str pre]) ++ .tag name attrs opened content :: more := by
  rw [parseItems] at h
  split at h
  · rename_i hs
    rw [searchOpen_none] at hs
    simp at h
    exact .inl ⟨hs, h.symm⟩
  · rename_i m hs
    right
    obtain ⟨e, hp, hh, ho⟩ := searchOpen_some isWord text m hs
    have key : ∀ level walked rest,
        (if m.opened then braceLoop 1 m.rest else (0, [], m.rest)) = (level, walked, rest) →
        level = 0 →
        braceStr m.opened ++ m.rest = (if m.opened then '{' :: walked.dropLast ++ ['}'] else []) ++ rest ∧
        (m.opened = true → Balanced walked.dropLast ∧ DepthLE 8 walked.dropLast) ∧
        (m.opened = false → walked.dropLast = [] ∧ rest = m.rest) := by
      intro level walked rest hb hl
      subst hl
      cases hop : m.opened with
      | false =>
        simp [hop] at hb
        obtain ⟨rfl, rfl⟩ := hb
        simp [braceStr]
      | true =>
        simp [hop] at hb
        obtain ⟨body, rfl, hc⟩ := closes_of_braceLoop _ _ _ hb
        obtain ⟨h1, h2, h3⟩ := hc
        simp [braceStr, h1, h2, h3]
    generalize hb : (if m.opened then braceLoop 1 m.rest else (0, [], m.rest)) = b at h
    obtain ⟨level, walked, rest⟩ := b
    have key := key level walked rest hb
    simp only at h
    split at h
    · simp at h
    · rename_i hl
      obtain ⟨k1, k2, k3⟩ := key (by omega)
      refine ⟨m.pre, m.name, m.attrs, m.opened, walked.dropLast, rest, ?_⟩
      cases hr : raw m.name with
      | true =>
        simp only [hr, if_true, bind, pure, Except.pure, Except.bind] at h
        split at h
        · simp at h
        · rename_i more hmore
          simp at h
          refine ⟨.str walked.dropLast, more, hp, ?_, k2, ?_, ?_, .inl ⟨rfl, rfl⟩, hmore, by simp [← h]⟩
          · rw [e, k1]; simp
          · intro h'; have := k3 h'; rw [this.2]; exact ⟨this.1, ho h'⟩
          · rw [← k1]; exact hh
      | false =>
        simp only [hr, Bool.false_eq_true, if_false, bind, pure, Except.pure, Except.bind] at h
        cases hin : parseItems isWord raw fuel walked.dropLast with
        | error e => simp [hin, Functor.map, Except.map] at h
        | ok inner =>
          simp only [hin, Functor.map, Except.map] at h
          split at h
          · simp at h
          · rename_i more hmore
            simp at h
            refine ⟨finish inner, more, hp, ?_, k2, ?_, ?_, .inr ⟨inner, rfl, rfl, rfl⟩, hmore, by simp [← h]⟩
            · rw [e, k1]; simp
            · intro h'; have := k3 h'; rw [this.2]; exact ⟨this.1, ho h'⟩
            · rw [← k1]; exact hh

theorem noAdj_tag (n a b c) (l : List Val) (h : noAdj l = true) :
    noAdj (.tag n a b c :: l) = true := by simpa [noAdj] using h

theorem parseItems_tidy (isWord : Char → Bool) (raw : Str → Bool) (fuel : Nat) (text : Str)
    (items : List Val) (h : parseItems isWord raw fuel text = .ok items) : Tidy items := by
  induction fuel generalizing text items with
  | zero => simp [parseItems] at h
  | succ fuel ih =>
    rcases parseItems_ok _ _ _ _ _ h with ⟨_, rfl⟩ | ⟨pre, name, attrs, opened, body, rest, content, more, _, _, _, _, _, hc, hm, rfl⟩
    · split
      · exact ⟨rfl, by simp⟩
      · refine ⟨rfl, ?_⟩
        intro v hv
        simp at hv
        subst hv
        rename_i hne
        refine ⟨by simp [Val.truthy]; exact hne, by simp [groupStrings], by simp⟩
    · have tm := ih _ _ hm
      have hct : (Val.tag name attrs opened content).truthy = true ∧
          groupStrings (Val.tag name attrs opened content) = Val.tag name attrs opened content := by
        rcases hc with ⟨_, rfl⟩ | ⟨inner, _, hi, rfl⟩
        · simp [Val.truthy, groupStrings]
        · have ti := ih _ _ hi
          rw [finish_tidy _ ti]
          exact ⟨truthy_tag_simplify _ _ _ _ ti, by simp [groupStrings, groupStrings_simplify _ ti]⟩
      refine ⟨?_, ?_⟩
      · have := noAdj_tag name attrs opened content more tm.1
        split <;> simp [noAdj, this]
        simpa [noAdj] using tm.1
      · intro v hv
        simp at hv
        rcases hv with hv | rfl | hv
        · obtain ⟨hne, rfl⟩ := hv
          exact ⟨by simp [Val.truthy]; exact hne, by simp [groupStrings], by simp⟩
        · exact ⟨hct.1, hct.2, by simp⟩
        · exact tm.2 v hv

/-! ### Source text -/

theorem sources_append (l l' : List Val) : sources (l ++ l') = sources l ++ sources l' := by
  induction l with
  | nil => simp [sources]
  | cons v l ih => simp [sources, ih]

theorem source_simplify (l : List Val) : source (simplify l) = sources l := by
  unfold simplify
  split <;> simp [source, sources]

theorem parseItems_sources (isWord : Char → Bool) (raw : Str → Bool) (fuel : Nat) (text : Str)
    (items : List Val) (h : parseItems isWord raw fuel text = .ok items) :
    sources items = text := by
  induction fuel generalizing text items with
  | zero => simp [parseItems] at h
  | succ fuel ih =>
    rcases parseItems_ok _ _ _ _ _ h with ⟨_, rfl⟩ | ⟨pre, name, attrs, opened, body, rest, content, more, _, rfl, _, hno, _, hc, hm, rfl⟩
    · split <;> simp_all [sources, source]
    · have e1 : source content = body := by
        rcases hc with ⟨_, rfl⟩ | ⟨inner, _, hi, rfl⟩
        · simp [source]
        · rw [finish_tidy _ (parseItems_tidy _ _ _ _ _ hi), source_simplify]
          exact ih _ _ hi
      rw [sources_append]
      have e2 : sources (if pre = [] then [] else [Val.str pre]) = pre := by
        split <;> simp_all [sources, source]
      rw [e2]
      simp only [sources, source, e1, ih _ _ hm]
      simp

/-! ### Enough fuel -/

theorem searchOpen_rest_lt (isWord : Char → Bool) (s : Str) (m : OpenMatch)
    (h : searchOpen isWord s = some m) : m.rest.length < s.length := by
  have := (searchOpen_some isWord s m h).1
  have := congrArg List.length this
  simp at this
  omega

theorem braceLoop_length (level : Nat) (s : Str) :
    (braceLoop level s).2.1.length + (braceLoop level s).2.2.length = s.length := by
  have := congrArg List.length (braceLoop_append level s)
  simpa using this

theorem parseItems_fuel (isWord : Char → Bool) (raw : Str → Bool) (fuel fuel' : Nat) (text : Str)
    (h : text.length < fuel) (h' : text.length < fuel') :
    parseItems isWord raw fuel text = parseItems isWord raw fuel' text := by
  induction fuel generalizing fuel' text with
  | zero => omega
  | succ fuel ih =>
    cases fuel' with
    | zero => omega
    | succ fuel' =>
      rw [parseItems, parseItems]
      split
      · rfl
      · rename_i m hm
        have hlt := searchOpen_rest_lt _ _ _ hm
        have hb : (if m.opened then braceLoop 1 m.rest else (0, [], m.rest)).2.1.length +
            (if m.opened then braceLoop 1 m.rest else (0, [], m.rest)).2.2.length = m.rest.length := by
          split
          · exact braceLoop_length 1 m.rest
          · simp
        generalize (if m.opened then braceLoop 1 m.rest else (0, [], m.rest)) = b at hb
        obtain ⟨level, walked, rest⟩ := b
        simp only at hb ⊢
        have e1 := ih fuel' rest (by omega) (by omega)
        have hd : walked.dropLast.length ≤ walked.length := by simp
        have e2 := ih fuel' walked.dropLast (by omega) (by omega)
        rw [e1, e2]

/-- `parseItems` with the fuel `parse` gives it. -/
def parseTop (isWord : Char → Bool) (raw : Str → Bool) (text : Str) :=
  parseItems isWord raw (text.length + 1) text

theorem parseItems_eq_top (isWord : Char → Bool) (raw : Str → Bool) (fuel : Nat) (text : Str)
    (h : text.length < fuel) : parseItems isWord raw fuel text = parseTop isWord raw text :=
  parseItems_fuel _ _ _ _ _ h (by omega)

theorem parse_ok (isWord : Char → Bool) (raw : Str → Bool) (text : Str) (v : Val)
    (h : parse isWord raw text = .ok v) :
    ∃ items, parseTop isWord raw text = .ok items ∧ v = simplify items ∧ Tidy items := by
  unfold parse at h
  unfold parseTop
  cases hi : parseItems isWord raw (text.length + 1) text with
  | error e => simp [hi, Functor.map, Except.map] at h
  | ok items =>
    have t := parseItems_tidy _ _ _ _ _ hi
    simp [hi, Functor.map, Except.map] at h
    exact ⟨items, rfl, by rw [← h, finish_tidy _ t], t⟩

theorem parse_of_top (isWord : Char → Bool) (raw : Str → Bool) (text : Str) (items : List Val)
    (h : parseTop isWord raw text = .ok items) :
    parse isWord raw text = .ok (simplify items) := by
  unfold parse
  unfold parseTop at h
  rw [h]
  simp [Functor.map, Except.map, finish_tidy _ (parseItems_tidy _ _ _ _ _ h)]

/-- The step of the parser on a text that starts with a closed tag. -/
theorem parseTop_closed (isWord : Char → Bool) (raw : Str → Bool) (pre name : Str)
    (attrs : Option Str) (after body rest : Str) (hp : NoTag pre)
    (hh : IsHead isWord name attrs ('{' :: after)) (hc : Closes after body rest) :
    parseTop isWord raw (pre ++ '@' :: name ++ attrs.getD [] ++ '{' :: after) = (do
      let content ← if raw name then pure (.str body) else parse isWord raw body
      let more ← parseTop isWord raw rest
      pure ((if pre = [] then [] else [.str pre]) ++ .tag name attrs true content :: more)) := by
  have hs := searchOpen_of_head isWord pre name attrs true after hp (by simpa [braceStr] using hh)
    (by simp)
  have hs' := hs
  simp only [braceStr, if_true, List.cons_append, List.nil_append] at hs'
  have hb := braceLoop_of_closes _ _ _ hc
  have hlen : after.length = body.length + rest.length + 1 := by rw [hc.1]; simp; omega
  unfold parseTop
  rw [parseItems]
  simp only [List.append_assoc, List.cons_append] at hs' ⊢
  simp only [hs', hb, if_true]
  simp only [List.dropLast_concat]
  simp only [gt_iff_lt, Nat.lt_irrefl, if_false]
  rw [parseItems_eq_top _ _ _ rest (by simp; omega)]
  rw [parseItems_eq_top _ _ _ body (by simp; omega)]
  rfl

theorem parseTop_bare (isWord : Char → Bool) (raw : Str → Bool) (pre name : Str)
    (attrs : Option Str) (rest : Str) (hp : NoTag pre)
    (hh : IsHead isWord name attrs rest) (ho : ∀ r, rest ≠ '{' :: r) :
    parseTop isWord raw (pre ++ '@' :: name ++ attrs.getD [] ++ rest) = (do
      let more ← parseTop isWord raw rest
      pure ((if pre = [] then [] else [.str pre]) ++ .tag name attrs false (.str []) :: more)) := by
  have hs := searchOpen_of_head isWord pre name attrs false rest hp (by simpa [braceStr] using hh)
    (by intro _; exact ho)
  have hs' := hs
  simp only [braceStr, if_true, Bool.false_eq_true, if_false, List.nil_append] at hs'
  unfold parseTop
  rw [parseItems]
  simp only [List.append_assoc, List.cons_append] at hs' ⊢
  simp only [hs', Bool.false_eq_true, if_false, List.dropLast_nil, gt_iff_lt, Nat.lt_irrefl]
  rw [parseItems_eq_top _ _ _ rest (by simp; omega)]
  have e : ∀ f, parseItems isWord raw (f+1) [] = .ok [] := by
    intro f; simp [parseItems, searchOpen]
  have : ∃ f, (pre ++ '@' :: (name ++ (attrs.getD [] ++ rest))).length = f + 1 := by
    exact ⟨_, by simp; rfl⟩
  obtain ⟨f, hf⟩ := this
  rw [hf, e]
  have t : finish [] = .str [] := by simp [finish, groupStrings, groupItems, joinAdj, simplify]
  cases raw name <;> simp [Functor.map, Except.map, pure, Except.pure, bind, Except.bind, t] <;> rfl

theorem parseTop_unclosed (isWord : Char → Bool) (raw : Str → Bool) (pre name : Str)
    (attrs : Option Str) (after : Str) (hp : NoTag pre)
    (hh : IsHead isWord name attrs ('{' :: after)) (hc : ¬ ∃ body rest, Closes after body rest) :
    parseTop isWord raw (pre ++ '@' :: name ++ attrs.getD [] ++ '{' :: after) =
      .error (.notClosed name) := by
  have hs := searchOpen_of_head isWord pre name attrs true after hp (by simpa [braceStr] using hh)
    (by simp)
  have hs' := hs
  simp only [braceStr, if_true, List.cons_append, List.nil_append] at hs'
  have hb := (braceLoop_pos_iff after).2 hc
  unfold parseTop
  rw [parseItems]
  simp only [List.append_assoc, List.cons_append] at hs' ⊢
  simp only [hs', if_true]
  generalize braceLoop 1 after = b at hb
  obtain ⟨level, walked, rest⟩ := b
  simp only at hb ⊢
  simp [hb]

theorem parseTop_noTag (isWord : Char → Bool) (raw : Str → Bool) (text : Str) (h : NoTag text) :
    parseTop isWord raw text = .ok (if text = [] then [] else [.str text]) := by
  unfold parseTop
  rw [parseItems]
  rw [(searchOpen_none isWord text).2 h]

/-- Every text is either free of tags or starts with a tag of one of the three
kinds. -/
theorem text_cases (isWord : Char → Bool) (text : Str) :
    NoTag text ∨
    (∃ pre name attrs after, text = pre ++ '@' :: name ++ attrs.getD [] ++ '{' :: after ∧
      NoTag pre ∧ IsHead isWord name attrs ('{' :: after)) ∨
    (∃ pre name attrs rest, text = pre ++ '@' :: name ++ attrs.getD [] ++ rest ∧
      NoTag pre ∧ IsHead isWord name attrs rest ∧ ∀ r, rest ≠ '{' :: r) := by
  cases hs : searchOpen isWord text with
  | none => exact .inl ((searchOpen_none _ _).1 hs)
  | some m =>
    obtain ⟨e, hp, hh, ho⟩ := searchOpen_some _ _ _ hs
    cases hop : m.opened with
    | true =>
      simp [hop, braceStr] at e hh
      exact .inr (.inl ⟨m.pre, m.name, m.attrs, m.rest, by simpa using e, hp, hh⟩)
    | false =>
      simp [hop, braceStr] at e hh
      exact .inr (.inr ⟨m.pre, m.name, m.attrs, m.rest, by simpa using e, hp, hh, ho hop⟩)

theorem parse_isError (isWord : Char → Bool) (raw : Str → Bool) (text : Str) (e : TagErr) :
    parse isWord raw text = .error e ↔ parseTop isWord raw text = .error e := by
  unfold parse parseTop
  cases parseItems isWord raw (text.length + 1) text <;> simp [Functor.map, Except.map]

/-! ### Errors -/

theorem unclosed_of_error (isWord : Char → Bool) (raw : Str → Bool) (n : Nat) :
    ∀ (text : Str) (e : TagErr), text.length ≤ n → parseTop isWord raw text = .error e →
      Unclosed isWord raw text ∧ ∃ name, e = .notClosed name := by
  induction n with
  | zero =>
    intro text e hl h
    have : text = [] := by cases text; rfl; simp at hl
    subst this
    rw [parseTop_noTag _ _ _ NoTag.nil] at h
    simp at h
  | succ n ih =>
    intro text e hl h
    rcases text_cases isWord text with hn | ⟨pre, name, attrs, after, rfl, hp, hh⟩ |
      ⟨pre, name, attrs, rest, rfl, hp, hh, ho⟩
    · rw [parseTop_noTag _ _ _ hn] at h; simp at h
    · by_cases hc : ∃ body rest, Closes after body rest
      · obtain ⟨body, rest, hc⟩ := hc
        have hlen : after.length = body.length + rest.length + 1 := by rw [hc.1]; simp; omega
        rw [parseTop_closed _ _ _ _ _ _ _ _ hp hh hc] at h
        simp at hl
        cases hr : raw name with
        | true =>
          simp only [hr, if_true, bind, pure, Except.pure, Except.bind] at h
          split at h
          · rename_i e' he'
            simp at h; subst h
            have := ih rest _ (by omega) he'
            exact ⟨.behind _ _ _ _ _ _ hp hh hc this.1, this.2⟩
          · simp at h
        | false =>
          simp only [hr, Bool.false_eq_true, if_false, bind, pure, Except.pure, Except.bind] at h
          split at h
          · rename_i e' he'
            simp at h; subst h
            have := ih body _ (by omega) ((parse_isError _ _ _ _).1 he')
            exact ⟨.inside _ _ _ _ _ _ hp hh hc hr this.1, this.2⟩
          · split at h
            · rename_i e' he'
              simp at h; subst h
              have := ih rest _ (by omega) he'
              exact ⟨.behind _ _ _ _ _ _ hp hh hc this.1, this.2⟩
            · simp at h
      · rw [parseTop_unclosed _ _ _ _ _ _ hp hh hc] at h
        simp at h
        exact ⟨.here _ _ _ _ hp hh hc, name, h.symm⟩
    · rw [parseTop_bare _ _ _ _ _ _ hp hh ho] at h
      simp only [bind, Except.bind] at h
      split at h
      · rename_i e' he'
        simp at h; subst h
        simp at hl
        have := ih rest _ (by omega) he'
        exact ⟨.behindBare _ _ _ _ hp hh ho this.1, this.2⟩
      · simp [pure, Except.pure] at h

theorem error_of_unclosed (isWord : Char → Bool) (raw : Str → Bool) (text : Str)
    (h : Unclosed isWord raw text) : ∃ e, parseTop isWord raw text = .error e := by
  induction h with
  | here pre name attrs after hp hh hc => exact ⟨_, parseTop_unclosed _ _ _ _ _ _ hp hh hc⟩
  | inside pre name attrs after body rest hp hh hc hr _ ih =>
    obtain ⟨e, he⟩ := ih
    rw [parseTop_closed _ _ _ _ _ _ _ _ hp hh hc]
    rw [← parse_isError] at he
    exact ⟨e, by simp [hr, he, bind, Except.bind]⟩
  | behind pre name attrs after body rest hp hh hc _ ih =>
    obtain ⟨e, he⟩ := ih
    rw [parseTop_closed _ _ _ _ _ _ _ _ hp hh hc]
    cases hr : raw name with
    | true => exact ⟨e, by simp [he, bind, Except.bind, pure, Except.pure]⟩
    | false =>
      cases hb : parse isWord raw body with
      | error e' => exact ⟨e', by simp [bind, Except.bind]⟩
      | ok v => exact ⟨e, by simp [he, bind, Except.bind]⟩
  | behindBare pre name attrs rest hp hh ho _ ih =>
    obtain ⟨e, he⟩ := ih
    rw [parseTop_bare _ _ _ _ _ _ hp hh ho]
    exact ⟨e, by simp [he, bind, Except.bind]⟩

/-! ### Tags inside the result -/

theorem within_simplify (l : List Val) (t : Val) (h : Within (simplify l) t) :
    t = simplify l ∨ ∃ v ∈ l, Within v t := by
  unfold simplify at h ⊢
  split at h
  · cases h; exact .inl rfl
  · rename_i v; exact .inr ⟨v, by simp, h⟩
  · cases h with
    | refl => exact .inl rfl
    | item _ v _ hv hw => exact .inr ⟨v, hv, hw⟩

theorem within_simplify_tag (l : List Val) (n a b c) (h : Within (simplify l) (.tag n a b c)) :
    ∃ v ∈ l, Within v (.tag n a b c) := by
  rcases within_simplify l _ h with h | h
  · unfold simplify at h
    split at h
    · simp at h
    · rename_i v; subst h; exact ⟨_, by simp, .refl _⟩
    · simp at h
  · exact h

theorem parseItems_within (isWord : Char → Bool) (raw : Str → Bool) (fuel : Nat) (text : Str)
    (items : List Val) (h : parseItems isWord raw fuel text = .ok items)
    (v : Val) (hv : v ∈ items) (n a b c) (hw : Within v (.tag n a b c)) :
    (b = true → Balanced (source c) ∧ DepthLE 8 (source c)) ∧ (b = false → c = .str []) ∧
    (∃ x w, n = x :: w ∧ x.isAlphanum = true ∧ ∀ y ∈ w, isWord y = true) ∧
    (raw n = true → ∃ s, c = .str s) := by
  induction fuel generalizing text items v with
  | zero => simp [parseItems] at h
  | succ fuel ih =>
    rcases parseItems_ok _ _ _ _ _ h with ⟨_, rfl⟩ | ⟨pre, name, attrs, opened, body, rest, content, more, _, rfl, hbal, hno, hh, hc, hm, rfl⟩
    · split at hv
      · simp at hv
      · simp at hv; subst hv; cases hw
    · simp at hv
      rcases hv with ⟨_, rfl⟩ | rfl | hv
      · cases hw
      · have e1 : source content = body := by
          rcases hc with ⟨_, rfl⟩ | ⟨inner, _, hi, rfl⟩
          · simp [source]
          · rw [finish_tidy _ (parseItems_tidy _ _ _ _ _ hi), source_simplify]
            exact parseItems_sources _ _ _ _ _ hi
        cases hw with
        | refl =>
          refine ⟨fun hb => by rw [e1]; exact hbal hb, ?_, hh.name_ok, ?_⟩
          · intro hb
            have hbody := (hno hb).1
            rcases hc with ⟨_, rfl⟩ | ⟨inner, _, hi, rfl⟩
            · rw [hbody]
            · rw [hbody] at hi
              cases fuel with
              | zero => simp [parseItems] at hi
              | succ f =>
                simp [parseItems, searchOpen] at hi
                subst hi
                simp [finish, groupStrings, groupItems, joinAdj, simplify]
          · intro hr
            rcases hc with ⟨_, rfl⟩ | ⟨inner, hr', hi, rfl⟩
            · exact ⟨_, rfl⟩
            · simp [hr] at hr'
        | content _ _ _ _ _ hw =>
          rcases hc with ⟨_, rfl⟩ | ⟨inner, hr', hi, rfl⟩
          · cases hw
          · rw [finish_tidy _ (parseItems_tidy _ _ _ _ _ hi)] at hw
            obtain ⟨v', hv', hw'⟩ := within_simplify_tag _ _ _ _ _ hw
            exact ih _ _ hi v' hv' hw'
      · exact ih _ _ hm v hv hw

theorem parseItems_strings (isWord : Char → Bool) (raw : Str → Bool) (fuel : Nat) (text : Str)
    (items : List Val) (h : parseItems isWord raw fuel text = .ok items) (s : Str)
    (hs : .str s ∈ items) : NoTag s ∧ s ≠ [] := by
  induction fuel generalizing text items with
  | zero => simp [parseItems] at h
  | succ fuel ih =>
    rcases parseItems_ok _ _ _ _ _ h with ⟨hn, rfl⟩ | ⟨pre, name, attrs, opened, body, rest, content, more, hp, rfl, hbal, hno, hh, hc, hm, rfl⟩
    · split at hs
      · simp at hs
      · simp at hs; subst hs; exact ⟨hn, by assumption⟩
    · simp at hs
      rcases hs with ⟨hne, rfl⟩ | hs
      · exact ⟨hp, hne⟩
      · exact ih _ _ hm hs

/-! ### Parsing again -/

theorem parse_noTag (isWord : Char → Bool) (raw : Str → Bool) (s : Str) (h : NoTag s) :
    parse isWord raw s = .ok (.str s) := by
  rw [parse_of_top _ _ _ _ (parseTop_noTag _ _ _ h)]
  split
  · rename_i e; simp [simplify, e]
  · simp [simplify]

theorem reparse_tag_simplify (isWord : Char → Bool) (raw : Str → Bool) (mx level : Nat)
    (n a b) (l : List Val) (ht : Tidy l) (hl : level + 1 < mx)
    (h : reparseAll isWord raw mx (level + 1) l = .ok l) :
    reparse isWord raw mx level (.tag n a b (simplify l)) = .ok (.tag n a b (simplify l)) := by
  have h1 : ¬ level ≥ mx := by omega
  have h2 : ¬ level + 1 ≥ mx := by omega
  unfold simplify
  split
  · rw [reparse]
    · simp only [h1, if_false, reparse, h2]
      rw [parse_noTag _ _ _ NoTag.nil]; rfl
    · simp
  · rename_i v
    have hv := (ht.2 v (by simp)).2.2
    rw [reparse]
    · simp only [h1, if_false]
      simp only [reparseAll, bind, Except.bind, pure, Except.pure] at h ⊢
      split at h
      · simp at h
      · rename_i v' hv'
        simp at h
        rw [h]
    · exact hv
  · rw [reparse]
    simp only [h1, if_false, h]
    rfl

/-- Parsing again leaves parsed items alone; `before` is the text of the
enclosing braces in front of `text`. -/
theorem reparseAll_items (isWord : Char → Bool) (raw : Str → Bool) (mx : Nat) (fuel : Nat) :
    ∀ (k level : Nat) (before text : Str) (items : List Val),
      parseItems isWord raw fuel text = .ok items →
      (∀ v ∈ items, ∀ n a b c, Within v (.tag n a b c) → raw n = false) →
      (k = 9 ∨ (∀ p, p <+: before ++ text → p.count '}' ≤ p.count '{') ∧
        DepthLE k (before ++ text)) → level + k + 1 < mx →
      reparseAll isWord raw mx level items = .ok items := by
  induction fuel with
  | zero => intro k level before text items h; simp [parseItems] at h
  | succ fuel ih =>
    intro k level before text items h hraw hpd hlev
    have h1 : ¬ level ≥ mx := by omega
    rcases parseItems_ok _ _ _ _ _ h with ⟨hn, rfl⟩ | ⟨pre, name, attrs, opened, body, rest, content, more, hp, rfl, hbal, hno, hh, hc, hm, rfl⟩
    · split
      · rfl
      · simp only [reparseAll, reparse, h1, if_false]
        rw [parse_noTag _ _ _ hn]; rfl
    · have hmore : reparseAll isWord raw mx level more = .ok more := by
        refine ih k level (before ++ (pre ++ '@' :: name ++ attrs.getD [] ++
          (if opened then '{' :: body ++ ['}'] else []))) rest more hm ?_ ?_ hlev
        · intro v hv; exact hraw v (by simp [hv])
        · simpa using hpd
      have htag : reparse isWord raw mx level (.tag name attrs opened content) =
          .ok (.tag name attrs opened content) := by
        have hr : raw name = false :=
          hraw (.tag name attrs opened content) (by simp) name attrs opened content (.refl _)
        rcases hc with ⟨hr', _⟩ | ⟨inner, _, hi, rfl⟩
        · simp [hr] at hr'
        · have ti := parseItems_tidy _ _ _ _ _ hi
          rw [finish_tidy _ ti]
          apply reparse_tag_simplify _ _ _ _ _ _ _ _ ti (by omega)
          cases opened with
          | false =>
            have hb := (hno rfl).1
            subst hb
            cases fuel with
            | zero => simp [parseItems] at hi
            | succ f =>
              simp [parseItems, searchOpen] at hi
              subst hi
              rfl
          | true =>
            have hbal := hbal rfl
            have hk : 1 ≤ k ∧ DepthLE (k - 1) body := by
              rcases hpd with rfl | ⟨hpos, hdep⟩
              · exact ⟨by omega, hbal.2⟩
              simp only [if_true] at hpos hdep
              have hpre : ∀ q, q <+: body →
                  before ++ (pre ++ '@' :: name ++ attrs.getD []) ++ '{' :: q <+:
                  before ++ (pre ++ '@' :: name ++ attrs.getD [] ++ ('{' :: body ++ ['}']) ++ rest) := by
                rintro q ⟨t, rfl⟩
                exact ⟨t ++ '}' :: rest, by simp⟩
              have hp0 := hpos (before ++ (pre ++ '@' :: name ++ attrs.getD []))
                ⟨'{' :: body ++ '}' :: rest, by simp⟩
              have hk : 1 ≤ k := by
                have := hdep _ (hpre [] (by simp))
                simp only [List.count_append, List.count_cons, List.count_nil] at this hp0
                simp at this hp0
                omega
              refine ⟨hk, ?_⟩
              intro q hq
              have := hdep _ (hpre q hq)
              simp only [List.count_append, List.count_cons, List.count_nil] at this hp0
              simp at this hp0
              omega
            refine ih (k - 1) (level + 1) [] body inner hi ?_ ?_ (by omega)
            · intro v hv n a b c hw
              refine hraw (.tag name attrs true (finish inner)) (by simp) n a b c
                (.content _ _ _ _ _ ?_)
              rw [finish_tidy _ ti]
              unfold simplify
              split
              · simp at hv
              · simp at hv; subst hv; exact hw
              · exact .item _ v _ hv hw
            · exact .inr ⟨by simpa using hbal.1.2, by simpa using hk.2⟩
      have hrest : reparseAll isWord raw mx level (.tag name attrs opened content :: more) =
          .ok (.tag name attrs opened content :: more) := by
        simp only [reparseAll, htag, hmore]; rfl
      split
      · simpa using hrest
      · simp only [List.cons_append, List.nil_append]
        rw [reparseAll]
        simp only [reparse, h1, if_false]
        rw [parse_noTag _ _ _ hp, hrest]; rfl

/-- Checking all prefixes of a given text by checking all lengths. -/
theorem forall_prefix (P : Str → Prop) (s : Str)
    (h : ∀ n, n < s.length + 1 → P (s.take n)) (p : Str) (hp : p <+: s) : P p := by
  have hl := hp.length_le
  have := h p.length (by omega)
  rwa [← List.prefix_iff_eq_take.1 hp] at this

end Verif.Parser
