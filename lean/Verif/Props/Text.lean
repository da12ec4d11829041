import Verif.Spec.Text
import Verif.Props.StrParse
import Verif.Lemmas.LabelText

/-!
# C57: functions for texts
-/

namespace Verif.Utils

open Verif

theorem mem_takeWhile {p : Char → Bool} {l : Str} {c : Char} (h : c ∈ l.takeWhile p) : p c = true := by
  induction l with
  | nil => simp at h
  | cons x l ih =>
    rw [List.takeWhile_cons] at h
    by_cases hx : p x = true
    · rw [if_pos hx] at h
      rcases List.mem_cons.1 h with rfl | h
      · exact hx
      · exact ih h
    · rw [if_neg hx] at h; cases h

theorem dropWhile_nil {p : Char → Bool} {l : Str} : l.dropWhile p = [] ↔ ∀ c ∈ l, p c = true := by
  induction l with
  | nil => simp
  | cons x l ih =>
    rw [List.dropWhile_cons]
    by_cases hx : p x = true
    · rw [if_pos hx, ih]; simp [hx]
    · rw [if_neg hx]; simp [hx]

/-! ### Joining -/

/-- C57. Several items are joined with the separator, and the last one with the terminal separator. -/
theorem C57_nicejoin (sep term : Str) (items : List Str) (last : Str) :
    nicejoin sep term [] = [] ∧ nicejoin sep term [last] = last ∧
    (items ≠ [] → nicejoin sep term (items ++ [last]) = List.intercalate sep items ++ term ++ last) := by
  refine ⟨rfl, rfl, fun h => ?_⟩
  cases items with
  | nil => exact absurd rfl h
  | cons x xs =>
    cases hx : xs ++ [last] with
    | nil => simp at hx
    | cons y ys =>
      show nicejoin sep term (x :: (xs ++ [last])) = _
      rw [hx]
      simp only [nicejoin, ← hx, ← LabelText.join_eq_intercalate]
      have e : x :: (xs ++ [last]) = (x :: xs) ++ [last] := rfl
      rw [e, List.dropLast_concat, List.getLast?_concat]
      rfl

/-! ### Lines -/

theorem splitlinesGo_plain (brk : Char → Bool) (l r : Str) (h : ∀ c ∈ l, brk c = false) (c : Char) (hc : brk c = true) :
    splitlinesGo brk false (l ++ c :: r) = l :: splitlinesGo brk (c = '\r') r := by
  induction l with
  | nil => simp [splitlinesGo, hc]
  | cons x l ih =>
    have hx : brk x = false := h x (by simp)
    rw [List.cons_append, splitlinesGo, ih (fun c hc => h c (by simp [hc]))]
    simp [hx]

theorem splitlinesGo_cr (brk : Char → Bool) (s : Str) (h : s.head? ≠ some '\n') :
    splitlinesGo brk true s = splitlinesGo brk false s := by
  cases s with
  | nil => rfl
  | cons c s =>
    have : c ≠ '\n' := by simpa using h
    simp [splitlinesGo, this]

/-- C57. Splitting a text into its lines. -/
theorem C57_lines (brk : Char → Bool) (hr : brk '\r' = true) (s : Str) (ls : List Str) :
    Lines brk s ls ↔ splitlines brk s = ls := by
  have fwd : ∀ s ls, Lines brk s ls → splitlines brk s = ls := by
    intro s ls h
    induction h with
    | nil => rfl
    | last l hl hb => exact splitlines_one brk l hb hl
    | one l c s ls hb hc hcr _ ih =>
      unfold splitlines at *
      rw [splitlinesGo_plain brk l s hb c hc]
      by_cases h : c = '\r'
      · simp only [h, decide_true]; rw [splitlinesGo_cr brk s (hcr h), ih]
      · simp only [h, decide_false, ih]
    | crlf l s ls hb _ ih =>
      unfold splitlines at *
      rw [splitlinesGo_plain brk l _ hb '\r' hr]
      simp only [decide_true, splitlinesGo, Bool.and_self, if_true, ih]
  have total : ∀ (n : Nat) (s : Str), s.length ≤ n → ∃ ls, Lines brk s ls := by
    intro n
    induction n with
    | zero =>
      intro s hs
      have : s = [] := List.length_eq_zero_iff.1 (by omega)
      subst this; exact ⟨[], .nil⟩
    | succ n ih =>
      intro s hs
      have hsplit : s.takeWhile (fun c => !brk c) ++ s.dropWhile (fun c => !brk c) = s := List.takeWhile_append_dropWhile
      have hpre : ∀ c ∈ s.takeWhile (fun c => !brk c), brk c = false := by
        intro c hc
        have := mem_takeWhile hc
        simpa using this
      cases hd : s.dropWhile (fun c => !brk c) with
      | nil =>
        rw [hd, List.append_nil] at hsplit
        rw [hsplit] at hpre
        cases s with
        | nil => exact ⟨[], .nil⟩
        | cons c s => exact ⟨_, .last _ (by simp) hpre⟩
      | cons c t =>
        have hc : brk c = true := by
          have := List.head?_dropWhile_not (fun c => !brk c) s
          rw [hd] at this
          simpa using this
        rw [hd] at hsplit
        have hlen := congrArg List.length hsplit
        simp only [List.length_append, List.length_cons] at hlen
        rw [← hsplit]
        by_cases hcr : c = '\r' ∧ t.head? = some '\n'
        · obtain ⟨rfl, ht⟩ := hcr
          cases t with
          | nil => simp at ht
          | cons x t =>
            simp only [List.head?_cons, Option.some.injEq] at ht
            subst ht
            obtain ⟨ls, h⟩ := ih t (by simp only [List.length_cons] at hlen; omega)
            exact ⟨_, .crlf _ t ls hpre h⟩
        · obtain ⟨ls, h⟩ := ih t (by omega)
          exact ⟨_, .one _ c t ls hpre hc (fun h1 h2 => hcr ⟨h1, h2⟩) h⟩
  constructor
  · exact fwd s ls
  · intro h
    obtain ⟨ls', h'⟩ := total s.length s (Nat.le_refl _)
    rw [fwd s ls' h'] at h
    rwa [← h]

/-- C57. Indenting puts the spaces in front of each line, and newlines between the lines. -/
theorem C57_indent (brk : Char → Bool) (hr : brk '\r' = true) (n : Nat) (s : Str) (ls : List Str) (h : Lines brk s ls) :
    spaceIndent brk n s = List.intercalate ['\n'] (ls.map (List.replicate n ' ' ++ ·)) := by
  unfold spaceIndent
  rw [(C57_lines brk hr s ls).1 h, LabelText.join_eq_intercalate]

/-! ### Spaces and newlines -/

theorem joinLines_done (sp : Char → Bool) (w s : Str) (hw : ∀ c ∈ w, sp c = true) :
    joinLines sp true (w ++ s) = joinLines sp true s := by
  induction w with
  | nil => rfl
  | cons c w ih =>
    rw [List.cons_append, joinLines, if_pos (hw c (by simp)), ih (fun c hc => hw c (by simp [hc]))]

theorem joinLines_head (sp : Char → Bool) (s : Str) (h : ∀ c ∈ s.head?, sp c = false) : joinLines sp true s = joinLines sp false s := by
  cases s with
  | nil => rfl
  | cons c s =>
    have : sp c = false := h c (by simp)
    simp [joinLines, this]

theorem joinLines_space (sp : Char → Bool) (w s : Str) (hw : ∀ c ∈ w, sp c = true) (hn : '\n' ∉ w)
    (hs : ∀ c ∈ s.head?, sp c = false) : joinLines sp false (w ++ s) = w ++ joinLines sp false s := by
  induction w with
  | nil => rfl
  | cons c w ih =>
    have htw : (c :: (w ++ s)).takeWhile sp = c :: w := by
      rw [← List.cons_append, List.takeWhile_append_of_pos hw]
      cases s with
      | nil => simp
      | cons d s =>
        have : sp d = false := hs d (by simp)
        simp [List.takeWhile_cons, this]
    rw [List.cons_append, joinLines, htw, if_neg (by simp [hn]), ih (fun c hc => hw c (by simp [hc]))
      (fun h => hn (by simp [h]))]
    rfl

theorem joined_eq (sp : Char → Bool) (hsp : sp '\n' = true) (s t : Str) (h : Joined sp s t) : joinLines sp false s = t := by
  induction h with
  | nil => rfl
  | newline w s t hw hn hs _ ih =>
    cases w with
    | nil => simp at hn
    | cons c w =>
      have hmem : '\n' ∈ (c :: (w ++ s)).takeWhile sp := by
        rw [← List.cons_append, List.takeWhile_append_of_pos hw]
        exact List.mem_append_left _ hn
      rw [List.cons_append, joinLines, if_pos (by rw [hw c (by simp), decide_eq_true hmem]; rfl), joinLines_done sp w s (fun c hc => hw c (by simp [hc])),
        joinLines_head sp s hs, ih]
  | space w s t hw hn _ hs _ ih => rw [joinLines_space sp w s hw hn hs, ih]
  | char c s t hc _ ih => rw [joinLines, if_neg (by simp [hc]), ih]

theorem joined_total (sp : Char → Bool) (n : Nat) (s : Str) (hn : s.length ≤ n) : ∃ t, Joined sp s t := by
  induction n generalizing s with
  | zero =>
    have : s = [] := List.length_eq_zero_iff.1 (by omega)
    subst this; exact ⟨[], .nil⟩
  | succ n ih =>
    cases s with
    | nil => exact ⟨[], .nil⟩
    | cons c s =>
      by_cases hc : sp c = true
      · have hsplit : (c :: s).takeWhile sp ++ (c :: s).dropWhile sp = c :: s := List.takeWhile_append_dropWhile
        have hw : ∀ x ∈ (c :: s).takeWhile sp, sp x = true := fun x hx => mem_takeWhile hx
        have hne : (c :: s).takeWhile sp ≠ [] := by simp [List.takeWhile_cons, hc]
        have hlen := congrArg List.length hsplit
        have hpos := List.length_pos_iff.2 hne
        simp only [List.length_append] at hlen
        have hd : ∀ x ∈ ((c :: s).dropWhile sp).head?, sp x = false := by
          intro x hx
          have := List.head?_dropWhile_not sp (c :: s)
          rw [hx] at this
          exact this
        obtain ⟨t, ht⟩ := ih ((c :: s).dropWhile sp) (by simp only [List.length_cons] at hlen hn; omega)
        rw [← hsplit]
        by_cases hm : '\n' ∈ (c :: s).takeWhile sp
        · exact ⟨_, .newline _ _ t hw hm hd ht⟩
        · exact ⟨_, .space _ _ t hw hm hne hd ht⟩
      · obtain ⟨t, ht⟩ := ih s (by simpa using hn)
        exact ⟨_, .char c s t (by simpa using hc) ht⟩

/-- C57. The stub of a text is its first paragraph, with the line breaks and the spaces around them replaced by single spaces. -/
theorem C57_stub (sp : Char → Bool) (hsp : sp '\n' = true) (first rest t : Str) :
    ((¬ ['\n', '\n'] <:+: first ++ ['\n']) → (Joined sp first t ↔ stub sp (first ++ '\n' :: '\n' :: rest) = t)) ∧
    ((¬ ['\n', '\n'] <:+: first) → (Joined sp first t ↔ stub sp first = t)) := by
  have key : ∀ s : Str, (split ['\n', '\n'] s).headD [] = first → (Joined sp first t ↔ stub sp s = t) := by
    intro s hs
    unfold stub
    rw [hs]
    constructor
    · exact joined_eq sp hsp first t
    · intro h
      obtain ⟨t', ht'⟩ := joined_total sp first.length first (Nat.le_refl _)
      rw [joined_eq sp hsp first t' ht'] at h
      rwa [← h]
  constructor
  · intro hni
    have hf : ∀ a b, first ++ ['\n'] ≠ a ++ '\n' :: '\n' :: b := fun a b e => hni ⟨a, b, by rw [e]; simp⟩
    apply key
    have := split_append ['\n', '\n'] first rest (by simp) (by
      intro x y e hy hp
      obtain ⟨z, hz⟩ := hp
      cases y with
      | nil => exact hy rfl
      | cons a y =>
        cases y with
        | nil =>
          simp at hz
          apply hf x []
          rw [e, hz.1]; simp
        | cons b y =>
          simp at hz
          apply hf x (y ++ ['\n'])
          rw [e, ← hz.1, ← hz.2.1]; simp)
    simp only [List.append_assoc, List.cons_append, List.nil_append] at this
    rw [this]
    rfl
  · intro hni
    apply key
    rw [split_of_not_infix _ _ (by simp) hni]
    rfl

theorem multi_plain (p s : Str) (hp : '\n' ∉ p) (b : Bool) (hne : p ≠ [] ∨ b = false) :
    stripMultiNewlines b (p ++ s) = p ++ stripMultiNewlines false s := by
  induction p generalizing b with
  | nil => rcases hne with h | rfl; exact absurd rfl h; rfl
  | cons c p ih =>
    have hc : c ≠ '\n' := fun h => hp (by simp [h])
    rw [List.cons_append, stripMultiNewlines, if_neg hc, ih (fun h => hp (by simp [h])) false (.inr rfl)]
    rfl

theorem multi_run (n : Nat) (s : Str) : stripMultiNewlines true (List.replicate n '\n' ++ s) = stripMultiNewlines true s := by
  induction n with
  | zero => rfl
  | succ n ih => rw [List.replicate_succ, List.cons_append, stripMultiNewlines, if_pos rfl, if_pos rfl, ih]

theorem multi_head (s : Str) (h : s.head? ≠ some '\n') : stripMultiNewlines true s = stripMultiNewlines false s := by
  cases s with
  | nil => rfl
  | cons c s =>
    have : c ≠ '\n' := by simpa using h
    rw [stripMultiNewlines, stripMultiNewlines, if_neg this, if_neg this]

/-- C57. Newlines that follow each other are replaced by one, and nothing else is changed. -/
theorem C57_newlines (s t : Str) : OneNewline s t ↔ stripMultiNewlines false s = t := by
  have fwd : ∀ s t, OneNewline s t → stripMultiNewlines false s = t := by
    intro s t h
    induction h with
    | last p hp =>
      have := multi_plain p [] hp false (.inr rfl)
      simpa [stripMultiNewlines] using this
    | more p n s t hp hs _ ih =>
      rw [List.append_assoc, multi_plain p _ hp false (.inr rfl), List.replicate_succ, List.cons_append, stripMultiNewlines, if_pos rfl,
        if_neg (by simp), multi_run, multi_head s hs, ih]
  have total : ∀ (n : Nat) (s : Str), s.length ≤ n → ∃ t, OneNewline s t := by
    intro n
    induction n with
    | zero =>
      intro s hs
      have : s = [] := List.length_eq_zero_iff.1 (by omega)
      subst this; exact ⟨[], .last [] (by simp)⟩
    | succ n ih =>
      intro s hs
      have hsplit : s.takeWhile (· ≠ '\n') ++ s.dropWhile (· ≠ '\n') = s := List.takeWhile_append_dropWhile
      have hpre : '\n' ∉ s.takeWhile (· ≠ '\n') := by
        intro hc
        have := mem_takeWhile hc
        simp at this
      cases hd : s.dropWhile (· ≠ '\n') with
      | nil =>
        rw [hd, List.append_nil] at hsplit
        rw [hsplit] at hpre
        exact ⟨s, .last s hpre⟩
      | cons c t =>
        have hc : c = '\n' := by
          have := List.head?_dropWhile_not (· ≠ '\n') s
          rw [hd] at this
          simpa using this
        subst hc
        have hs2 : ('\n' :: t).takeWhile (· = '\n') ++ ('\n' :: t).dropWhile (· = '\n') = '\n' :: t :=
          List.takeWhile_append_dropWhile
        have hrun : ('\n' :: t).takeWhile (· = '\n') = List.replicate ((t.takeWhile (· = '\n')).length + 1) '\n' := by
          apply List.eq_replicate_iff.2
          constructor
          · simp
          · intro b hb
            have := mem_takeWhile hb
            simpa using this
        have hh : (('\n' :: t).dropWhile (· = '\n')).head? ≠ some '\n' := by
          intro h
          have := List.head?_dropWhile_not (· = '\n') ('\n' :: t)
          rw [h] at this
          simp at this
        have hlen1 := congrArg List.length hsplit
        have hlen2 := congrArg List.length hs2
        rw [hd] at hlen1
        rw [hrun] at hlen2
        simp only [List.length_append, List.length_cons, List.length_replicate] at hlen1 hlen2
        obtain ⟨r, hr⟩ := ih (('\n' :: t).dropWhile (· = '\n')) (by omega)
        have := OneNewline.more _ (t.takeWhile (· = '\n')).length _ _ hpre hh hr
        rw [← hrun, List.append_assoc, hs2, ← hd, hsplit] at this
        exact ⟨_, this⟩
  constructor
  · exact fwd s t
  · intro h
    obtain ⟨t', h'⟩ := total s.length s (Nat.le_refl _)
    rw [fwd s t' h'] at h
    rwa [← h]

/-! ### Colons -/

theorem replace_nil (old new : Str) : replace old new [] = [] := rfl

theorem replace_hit (old new s : Str) (h : old ≠ []) : replace old new (old ++ s) = new ++ replace old new s := by
  unfold replace
  have := split_append old [] s h (by
    intro x y e hy
    have : y = [] := by have := congrArg List.length e; simp at this; exact List.length_eq_zero_iff.1 (by omega)
    exact absurd this hy)
  rw [List.nil_append] at this
  rw [this, join_cons _ _ _ (split_ne_nil _ _)]
  rfl

theorem replace_miss (old new s : Str) (c : Char) (h : ¬ old <+: c :: s) : replace old new (c :: s) = c :: replace old new s := by
  unfold replace split
  rw [splitGo, if_neg (by simpa using h)]
  cases hs : splitGo old s 0 with
  | nil => exact absurd hs (splitGo_ne_nil old s 0)
  | cons p ps =>
    cases ps with
    | nil => rfl
    | cons q qs => rfl

/-- C57. Escaped colons lose their backslash when a value is read, and nothing else changes. -/
theorem C57_unescape (s t : Str) : Unescaped s t ↔ unescape s = t := by
  have fwd : ∀ s t, Unescaped s t → unescape s = t := by
    intro s t h
    unfold unescape
    induction h with
    | nil => rfl
    | colon s t _ ih =>
      have := replace_hit ['\\', ':'] [':'] s (by simp)
      simp only [List.cons_append, List.nil_append] at this
      rw [this, ih]
    | char c s t hc _ ih =>
      rw [replace_miss, ih]
      rintro ⟨r, hr⟩
      simp only [List.cons_append, List.nil_append, List.cons.injEq] at hr
      exact hc hr.1.symm (by rw [← hr.2]; rfl)
  have total : ∀ (n : Nat) (s : Str), s.length ≤ n → ∃ t, Unescaped s t := by
    intro n
    induction n with
    | zero =>
      intro s hs
      have : s = [] := List.length_eq_zero_iff.1 (by omega)
      subst this; exact ⟨[], .nil⟩
    | succ n ih =>
      intro s hs
      cases s with
      | nil => exact ⟨[], .nil⟩
      | cons c s =>
        by_cases hc : c = '\\' ∧ s.head? = some ':'
        · obtain ⟨rfl, h⟩ := hc
          cases s with
          | nil => simp at h
          | cons x s =>
            simp only [List.head?_cons, Option.some.injEq] at h
            subst h
            obtain ⟨t, ht⟩ := ih s (by simp only [List.length_cons] at hs; omega)
            exact ⟨_, .colon s t ht⟩
        · obtain ⟨t, ht⟩ := ih s (by simpa using hs)
          exact ⟨_, .char c s t (fun h1 h2 => hc ⟨h1, h2⟩) ht⟩
  constructor
  · exact fwd s t
  · intro h
    obtain ⟨t', h'⟩ := total s.length s (Nat.le_refl _)
    rw [fwd s t' h'] at h
    rwa [← h]

/-! ### Capital letters -/

theorem isUpper_iff (c : Char) : ('A' ≤ c ∧ c ≤ 'Z') ↔ c.isUpper = true := by
  simp only [Char.isUpper, Bool.and_eq_true, decide_eq_true_eq]
  exact Iff.rfl

theorem capitalPieces_plain (p s : Str) (hp : ∀ c ∈ p, c.isUpper = false) : capitalPieces (p ++ s) = capitalPieces s := by
  induction p with
  | nil => rfl
  | cons c p ih =>
    rw [List.cons_append, capitalPieces, if_neg (by rw [isUpper_iff, hp c (by simp)]; simp), ih (fun c hc => hp c (by simp [hc]))]

/-- C57. A text in camel case is cut in front of each capital letter; the pieces are put in lower case and joined. A text without
capital letters stays as it is. -/
theorem C57_camelcase (lower : Str → Str) (sep pre : Str) (words : List Str) (hp : ∀ c ∈ pre, c.isUpper = false)
    (hw : ∀ w ∈ words, CapWord w) :
    convertCamelcase lower sep (pre ++ words.flatten) =
      if words = [] then pre else List.intercalate sep (words.map lower) := by
  have key : capitalPieces words.flatten = words := by
    induction words with
    | nil => rfl
    | cons w ws ih =>
      have ih := ih (fun w h => hw w (by simp [h]))
      obtain ⟨c, t, rfl, hc, ht⟩ := hw w (by simp)
      rw [List.flatten_cons, List.cons_append, capitalPieces, if_pos ((isUpper_iff c).2 hc), capitalPieces_plain t _ ht, ih]
      congr 2
      rw [List.takeWhile_append_of_pos (by
        intro x hx
        simp only [isUpper_iff, ht x hx]
        decide)]
      cases ws with
      | nil => simp
      | cons v vs =>
        obtain ⟨d, u, rfl, hd, -⟩ := hw v (by simp)
        rw [List.flatten_cons, List.cons_append, List.takeWhile_cons, if_neg]
        · simp
        · simp only [isUpper_iff, hd]; decide
  unfold convertCamelcase
  simp only [capitalPieces_plain pre _ hp, key]
  by_cases h : words = []
  · subst h; simp
  · rw [if_pos h, if_neg h, LabelText.join_eq_intercalate]

/-- C57. What is in front of the first capital letter is lost, if there is one. -/
theorem C57_camelcase_loses : convertCamelcase (List.map Char.toLower) "_".toList "processContext".toList = "context".toList ∧
    convertCamelcase (List.map Char.toLower) "_".toList "ProcessContext".toList = "process_context".toList := by decide

/-! ### Quotes -/

theorem strip_nil_iff (sp : Char → Bool) (s : Str) : strip sp s = [] ↔ ∀ c ∈ s, sp c = true := by
  unfold strip rstrip lstrip
  rw [List.reverse_eq_nil_iff, dropWhile_nil]
  constructor
  · intro h c hc
    by_cases hd : s.dropWhile sp = []
    · exact dropWhile_nil.1 hd c hc
    · obtain ⟨x, xs, hx⟩ := List.exists_cons_of_ne_nil hd
      have h1 := List.head?_dropWhile_not sp s
      rw [hx] at h1
      have h2 := h x (by rw [hx]; simp)
      simp [h2] at h1
  · intro h c hc
    exact h c ((List.dropWhile_sublist sp).subset (List.mem_reverse.1 hc))

/-- One kind of quotes. -/
def quotes (sp : Char → Bool) (s : Str) (q : Char) : Option Str :=
  if s.count q % 2 = 0 then
    let ps := split [q] s
    if strip sp (ps.head?.getD []) = [] ∧ strip sp (ps.getLast?.getD []) = [] then
      some ((ps.head?.getD []) ++ join [q] (ps.drop 1).dropLast ++ (ps.getLast?.getD []))
    else none
  else none

theorem split_last (q : Char) (s post : Str) (h : q ∉ post) : split [q] (s ++ q :: post) = split [q] s ++ [post] := by
  induction hn : s.length using Nat.strongRecOn generalizing s with
  | _ n ih =>
    by_cases hq : q ∈ s
    · obtain ⟨a, b, rfl, ha⟩ := List.eq_append_cons_of_mem hq
      rw [List.append_assoc, List.cons_append, split_char q a _ ha, split_char q a _ ha, ih b.length (by subst hn; simp; omega) b rfl]
      rfl
    · rw [split_char q s post hq, split_char_none q s hq, split_char_none q post h]
      rfl

theorem quotes_iff (sp : Char → Bool) (q : Char) (hq : sp q = false) (s r : Str) :
    quotes sp s q = some r ↔ Quoted sp q s r ∨ ((∀ c ∈ s, sp c = true) ∧ r = s ++ s) := by
  have blank : ∀ p : Str, (∀ c ∈ p, sp c = true) → q ∉ p := by
    intro p hp hm
    have := hp q hm
    rw [hq] at this; cases this
  have quoted : ∀ pre body post : Str, (∀ c ∈ pre, sp c = true) → (∀ c ∈ post, sp c = true) → body.count q % 2 = 0 →
      quotes sp (pre ++ q :: (body ++ q :: post)) q = some (pre ++ body ++ post) := by
    intro pre body post h1 h2 h3
    have hc : (pre ++ q :: (body ++ q :: post)).count q % 2 = 0 := by
      simp only [List.count_append, List.count_cons_self, List.count_eq_zero.2 (blank _ h1), List.count_eq_zero.2 (blank _ h2)]
      omega
    unfold quotes
    rw [if_pos hc, split_char q pre _ (blank _ h1), split_last q body post (blank _ h2)]
    have e1 : (pre :: (split [q] body ++ [post])).getLast? = some post := by
      rw [← List.cons_append, List.getLast?_concat]
    simp only [List.head?_cons, Option.getD_some, e1, List.drop_succ_cons, List.drop_zero, List.dropLast_concat]
    rw [if_pos ⟨(strip_nil_iff sp _).2 h1, (strip_nil_iff sp _).2 h2⟩, join_split [q] body (by simp)]
  have only : ∀ s : Str, (∀ c ∈ s, sp c = true) → quotes sp s q = some (s ++ s) := by
    intro s h
    have hm := blank s h
    unfold quotes
    rw [if_pos (by rw [List.count_eq_zero.2 hm]), split_char_none q s hm]
    simp [(strip_nil_iff sp s).2 h, join]
  constructor
  · intro h
    by_cases hm : q ∈ s
    · left
      obtain ⟨pre, rest, rfl, hpre⟩ := List.eq_append_cons_of_mem hm
      unfold quotes at h
      by_cases hc : (pre ++ q :: rest).count q % 2 = 0
      · rw [if_pos hc] at h
        have hcr : q ∈ rest := by
          apply Classical.byContradiction
          intro hn
          simp only [List.count_append, List.count_cons_self, List.count_eq_zero.2 hpre, List.count_eq_zero.2 hn] at hc
          omega
        -- the last quote
        have hrev : q ∈ rest.reverse := by simpa using hcr
        obtain ⟨a, b, hab, ha⟩ := List.eq_append_cons_of_mem hrev
        have hrest : rest = b.reverse ++ q :: a.reverse := by
          have := congrArg List.reverse hab
          simpa using this
        subst hrest
        have hpost : q ∉ a.reverse := by simpa using ha
        rw [split_char q pre _ hpre, split_last q _ _ hpost] at h
        have e1 : (pre :: (split [q] b.reverse ++ [a.reverse])).getLast? = some a.reverse := by
          rw [← List.cons_append, List.getLast?_concat]
        simp only [List.head?_cons, Option.getD_some, e1, List.drop_succ_cons, List.drop_zero, List.dropLast_concat] at h
        by_cases hb : strip sp pre = [] ∧ strip sp a.reverse = []
        · rw [if_pos hb, join_split [q] _ (by simp)] at h
          refine ⟨pre, b.reverse, a.reverse, rfl, (Option.some.inj h).symm, (strip_nil_iff sp _).1 hb.1, (strip_nil_iff sp _).1 hb.2, ?_⟩
          simp only [List.count_append, List.count_cons_self, List.count_eq_zero.2 hpre, List.count_eq_zero.2 hpost] at hc
          omega
        · rw [if_neg hb] at h; cases h
      · rw [if_neg hc] at h; cases h
    · right
      unfold quotes at h
      rw [if_pos (by rw [List.count_eq_zero.2 hm]), split_char_none q s hm] at h
      simp only [List.head?_cons, Option.getD_some, List.getLast?_singleton, and_self] at h
      by_cases hb : strip sp s = []
      · rw [if_pos hb] at h
        refine ⟨(strip_nil_iff sp s).1 hb, ?_⟩
        have := Option.some.inj h
        simpa [join] using this.symm
      · rw [if_neg hb] at h; cases h
  · rintro (⟨pre, body, post, rfl, rfl, h1, h2, h3⟩ | ⟨h1, rfl⟩)
    · exact quoted pre body post h1 h2 h3
    · exact only s h1

/-- C57. A line that is enclosed in single quotes, or else in double quotes, loses them; other lines stay as they are. (Blank lines
are excepted, see `C57_blank_doubled`.) -/
theorem C57_quotes_partial (sp brk : Char → Bool) (h1 : sp '\'' = false) (h2 : sp '"' = false) (s r : Str) (hn : '\n' ∉ s)
    (hb : ∃ c ∈ s, sp c = false) :
    stripEndQuotes sp brk s = r ↔
      Quoted sp '\'' s r ∨ ((¬ ∃ r', Quoted sp '\'' s r') ∧ Quoted sp '"' s r) ∨
      ((¬ ∃ r', Quoted sp '\'' s r') ∧ (¬ ∃ r', Quoted sp '"' s r') ∧ r = s) := by
  have hnb : ∀ r' : Str, ¬ ((∀ c ∈ s, sp c = true) ∧ r' = s ++ s) := by
    rintro r' ⟨h, -⟩
    obtain ⟨c, hc, hs⟩ := hb
    rw [h c hc] at hs; cases hs
  have q1 : ∀ r', quotes sp s '\'' = some r' ↔ Quoted sp '\'' s r' := fun r' => by rw [quotes_iff sp _ h1]; simp only [hnb, or_false]
  have q2 : ∀ r', quotes sp s '"' = some r' ↔ Quoted sp '"' s r' := fun r' => by rw [quotes_iff sp _ h2]; simp only [hnb, or_false]
  have e : stripEndQuotes sp brk s = ((quotes sp s '\'').or (quotes sp s '"')).getD s := by
    unfold stripEndQuotes; rw [if_neg hn]; rfl
  rw [e]
  cases c1 : quotes sp s '\'' with
  | some a =>
    have hq := (q1 a).1 c1
    simp only [Option.some_or, Option.getD_some]
    constructor
    · rintro rfl; exact .inl hq
    · rintro (h | ⟨h, -⟩ | ⟨h, -⟩)
      · have := (q1 r).2 h
        rw [c1] at this; exact Option.some.inj this
      · exact absurd ⟨a, hq⟩ h
      · exact absurd ⟨a, hq⟩ h
  | none =>
    have hq : ¬ ∃ r', Quoted sp '\'' s r' := by
      rintro ⟨r', h⟩
      have := (q1 r').2 h
      rw [c1] at this; cases this
    simp only [Option.none_or]
    cases c2 : quotes sp s '"' with
    | some a =>
      have hq2 := (q2 a).1 c2
      simp only [Option.getD_some]
      constructor
      · rintro rfl; exact .inr (.inl ⟨hq, hq2⟩)
      · rintro (h | ⟨-, h⟩ | ⟨-, h, -⟩)
        · exact absurd ⟨r, h⟩ hq
        · have := (q2 r).2 h
          rw [c2] at this; exact Option.some.inj this
        · exact absurd ⟨a, hq2⟩ h
    | none =>
      have hq2 : ¬ ∃ r', Quoted sp '"' s r' := by
        rintro ⟨r', h⟩
        have := (q2 r').2 h
        rw [c2] at this; cases this
      simp only [Option.getD_none]
      constructor
      · rintro rfl; exact .inr (.inr ⟨hq, hq2, rfl⟩)
      · rintro (h | ⟨-, h⟩ | ⟨-, -, h⟩)
        · exact absurd ⟨r, h⟩ hq
        · exact absurd ⟨r, h⟩ hq2
        · exact h.symm

/-- C57. A blank line is doubled. -/
theorem C57_blank_doubled (sp brk : Char → Bool) (h1 : sp '\'' = false) (s : Str) (hn : '\n' ∉ s) (hb : ∀ c ∈ s, sp c = true) :
    stripEndQuotes sp brk s = s ++ s := by
  have := (quotes_iff sp '\'' h1 s (s ++ s)).2 (.inr ⟨hb, rfl⟩)
  have e : stripEndQuotes sp brk s = ((quotes sp s '\'').or (quotes sp s '"')).getD s := by
    unfold stripEndQuotes; rw [if_neg hn]; rfl
  rw [e, this]; rfl

/-- C57. In a text of several lines the quotes of each line are removed. -/
theorem C57_quotes_lines (sp brk : Char → Bool) (hr : brk '\r' = true) (hb : brk '\n' = true) (s : Str) (ls : List Str) (hn : '\n' ∈ s)
    (h : Lines brk s ls) : stripEndQuotes sp brk s = List.intercalate ['\n'] (ls.map (stripEndQuotes sp brk)) := by
  have hno : ∀ l ∈ ls, '\n' ∉ l := by
    have : ∀ s ls, Lines brk s ls → ∀ l ∈ ls, ∀ c ∈ l, brk c = false := by
      intro s ls h
      induction h with
      | nil => simp
      | last l _ hl => intro l' h'; simp only [List.mem_singleton] at h'; subst h'; exact hl
      | one l c s ls hl _ _ _ ih =>
        intro l' h'
        rcases List.mem_cons.1 h' with rfl | h'
        · exact hl
        · exact ih l' h'
      | crlf l s ls hl _ ih =>
        intro l' h'
        rcases List.mem_cons.1 h' with rfl | h'
        · exact hl
        · exact ih l' h'
    intro l hl hm
    have := this s ls h l hl '\n' hm
    rw [hb] at this; cases this
  have hm : ls.map (stripEndQuotesLine sp) = ls.map (stripEndQuotes sp brk) := by
    refine List.map_congr_left fun l hl => ?_
    unfold stripEndQuotes
    rw [if_neg (hno l hl)]
  rw [stripEndQuotes, if_pos hn, (C57_lines brk hr s ls).1 h, hm, LabelText.join_eq_intercalate]

/-- C57. The quotes at the ends need not belong together. -/
theorem C57_quotes_apart : stripEndQuotes asciiSp asciiBrk "'a' and 'b'".toList = "a' and 'b".toList := by decide

/-! ### Concrete cases -/

example : nicejoin ", ".toList " and ".toList ["Bill".toList, "Ted".toList, "Frances".toList] = "Bill, Ted and Frances".toList := by
  decide

example : stripEndQuotes asciiSp asciiBrk " \"a test\" \nb \"c\" ".toList = " a test \nb \"c\" ".toList := by decide

example : Quoted asciiSp '"' " \"a \"b\" c\"".toList " a \"b\" c".toList :=
  ⟨" ".toList, "a \"b\" c".toList, [], by decide, by decide, by decide, by decide, by decide⟩

example : Lines asciiBrk "a\r\n\nb".toList ["a".toList, [], "b".toList] :=
  .crlf "a".toList _ _ (by decide) (.one [] '\n' _ _ (by decide) (by decide) (by decide) (.last _ (by decide) (by decide)))

example : stub asciiSp "Takes a string \n   line.\n\nMore".toList = "Takes a string line.".toList := by decide

example : spaceIndent asciiBrk 2 "a\n b\n".toList = "  a\n   b".toList := by decide

example : stripMultiNewlines false "a\n\n\nb\nc".toList = "a\nb\nc".toList := by decide

example : CapWord "Process".toList := ⟨'P', "rocess".toList, rfl, by decide, by decide⟩

end Verif.Utils
