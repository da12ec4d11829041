import Verif.Lemmas.Utils

/-!
# C37, C38: texts as lists and dicts
-/

set_option linter.unusedSimpArgs false
set_option linter.unusedVariables false

namespace Verif.Utils

open Verif

/-- Spaces for the concrete checks. -/
def asciiSp (c : Char) : Bool := c = ' ' || c = '\n' || c = '\t' || c = '\r'
def asciiBrk (c : Char) : Bool := c = '\n' || c = '\r'

/-! ### C37 -/

/-- C37. A text with semicolons is split at them, and the pieces are stripped. -/
theorem C37_semicolons (sp : Char → Bool) (ps : List Str) (h2 : 2 ≤ ps.length) (h : ∀ p ∈ ps, ';' ∉ p) :
    strToList sp (join [';'] ps) = ps.map (strip sp) := by
  have hne : ps ≠ [] := by rintro rfl; simp at h2
  unfold strToList
  simp only [split_join ';' ps hne h]
  rw [if_pos (by omega)]

/-- C37. Otherwise a text with at least two lines that are not blank is split into these lines, stripped. -/
theorem C37_lines (sp : Char → Bool) (ps : List Str) (h : ∀ p ∈ ps, ';' ∉ p ∧ '\n' ∉ p) (hne : ps ≠ [])
    (h2 : 2 ≤ (ps.filter fun p => strip sp p ≠ []).length) :
    strToList sp (join ['\n'] ps) = (ps.filter fun p => strip sp p ≠ []).map (strip sp) := by
  have hs : split [';'] (join ['\n'] ps) = [join ['\n'] ps] :=
    split_char_none _ _ (not_mem_join '\n' ';' ps (by decide) (fun p hp => (h p hp).1))
  have e : ((ps.map (strip sp)).filter fun x => decide (x ≠ [])) =
      (ps.filter fun p => decide (strip sp p ≠ [])).map (strip sp) := by
    rw [List.filter_map]; rfl
  unfold strToList
  simp only [hs, split_join '\n' ps hne (fun p hp => (h p hp).2), e]
  rw [if_neg (by simp), if_pos (by rw [List.length_map]; omega)]

/-- C37. Otherwise a text with commas is split at them, and the pieces are stripped. -/
theorem C37_commas (sp : Char → Bool) (ps : List Str) (h2 : 2 ≤ ps.length) (h : ∀ p ∈ ps, ';' ∉ p ∧ '\n' ∉ p ∧ ',' ∉ p) :
    strToList sp (join [','] ps) = ps.map (strip sp) := by
  have hne : ps ≠ [] := by rintro rfl; simp at h2
  have hs : split [';'] (join [','] ps) = [join [','] ps] :=
    split_char_none _ _ (not_mem_join ',' ';' ps (by decide) (fun p hp => (h p hp).1))
  have hn : split ['\n'] (join [','] ps) = [join [','] ps] :=
    split_char_none _ _ (not_mem_join ',' '\n' ps (by decide) (fun p hp => (h p hp).2.1))
  unfold strToList
  simp only [hs, hn, split_join ',' ps hne (fun p hp => (h p hp).2.2)]
  rw [if_neg (by simp), if_neg, if_pos (by omega)]
  rw [List.map_cons, List.map_nil, List.filter_cons]
  split <;> simp

/-- C37. A text without separators is a list by itself. -/
theorem C37_single (sp : Char → Bool) (s : Str) (h : ';' ∉ s ∧ '\n' ∉ s ∧ ',' ∉ s) : strToList sp s = [s] := by
  unfold strToList
  simp only [split_char_none _ _ h.1, split_char_none _ _ h.2.1, split_char_none _ _ h.2.2]
  rw [if_neg (by simp), if_neg, if_neg (by simp)]
  rw [List.map_cons, List.map_nil, List.filter_cons]
  split <;> simp

/-- Every text is a join of pieces without the separator, so the theorems above cover every text. -/
theorem C37_every_text (d : Char) (s : Str) : ∃ ps, ps ≠ [] ∧ s = join [d] ps ∧ ∀ p ∈ ps, d ∉ p :=
  ⟨split [d] s, split_ne_nil _ _, (join_split [d] s (by simp)).symm, split_char_not_mem d s⟩

/-- C37. A list of clean entries, joined by any of the separators, is recovered. Partial: two entries or more, and
entries without semicolons and newlines, and for commas without commas. -/
theorem C37_round_trip_partial (sp : Char → Bool) (es : List Str) (h2 : 2 ≤ es.length)
    (hc : ∀ e ∈ es, strip sp e = e ∧ e ≠ [] ∧ ';' ∉ e ∧ '\n' ∉ e) :
    strToList sp (join [';'] es) = es ∧ strToList sp (join ['\n'] es) = es ∧
    ((∀ e ∈ es, ',' ∉ e) → strToList sp (join [','] es) = es) := by
  have hm : es.map (strip sp) = es := by
    conv => rhs; rw [← List.map_id es]
    exact List.map_congr_left fun e he => (hc e he).1
  have hf : (es.filter fun p => decide (strip sp p ≠ [])) = es := by
    rw [List.filter_eq_self]
    intro e he
    simpa [(hc e he).1] using (hc e he).2.1
  refine ⟨?_, ?_, ?_⟩
  · rw [C37_semicolons sp es h2 (fun e he => (hc e he).2.2.1), hm]
  · rw [C37_lines sp es (fun e he => ⟨(hc e he).2.2.1, (hc e he).2.2.2⟩) (by rintro rfl; simp at h2)
      (by rw [hf]; exact h2), hf, hm]
  · intro hcomma
    rw [C37_commas sp es h2 (fun e he => ⟨(hc e he).2.2.1, (hc e he).2.2.2, hcomma e he⟩), hm]

example : strToList asciiSp "one, 1; two, 2; three, 3".toList = ["one, 1".toList, "two, 2".toList, "three, 3".toList] ∧
    strToList asciiSp "\none, 1\n  two, 2\n".toList = ["one, 1".toList, "two, 2".toList] ∧
    strToList asciiSp "one, two".toList = ["one".toList, "two".toList] := by decide

/-- Finding: C37's "none is empty" fails for semicolons and commas, and "stripped" for a single entry. -/
theorem C37_empty_entries :
    strToList asciiSp "one; ;two;".toList = ["one".toList, [], "two".toList, []] ∧
    strToList asciiSp "one,,two".toList = ["one".toList, [], "two".toList] ∧
    strToList asciiSp " one\n".toList = [" one\n".toList] ∧ strToList asciiSp [] = [[]] := by decide

/-! ### C38 -/

theorem addBlocks_get (sp : Char → Bool) (bs : List Block) (d : Dict Str (List Str)) (k : Str) :
    (bs.foldl (addBlock sp) d).get? k =
      if ∃ b ∈ bs, b.key sp = k then
        some ((d.get? k).getD [] ++ (bs.filter fun b => b.key sp = k).flatMap Block.value)
      else d.get? k := by
  induction bs generalizing d with
  | nil => simp
  | cons b bs ih =>
    rw [List.foldl_cons, ih]
    simp only [addBlock, Dict.get?_set]
    by_cases hk : b.key sp = k
    · subst hk
      simp only [if_true, Option.getD_some]
      by_cases hex : ∃ b' ∈ bs, b'.key sp = b.key sp
      · rw [if_pos hex, if_pos ⟨b, by simp, rfl⟩]
        simp [List.filter_cons]
      · rw [if_neg hex, if_pos ⟨b, by simp, rfl⟩]
        have : (bs.filter fun b' => decide (b'.key sp = b.key sp)) = [] := by
          rw [List.filter_eq_nil_iff]
          intro b' hb' h
          exact hex ⟨b', hb', by simpa using h⟩
        simp [List.filter_cons, this]
    · have hk' : ¬ k = b.key sp := fun h => hk h.symm
      simp only [if_neg hk, if_neg hk']
      have e1 : (∃ b' ∈ b :: bs, b'.key sp = k) ↔ ∃ b' ∈ bs, b'.key sp = k := by
        constructor
        · rintro ⟨x, hx, h⟩
          rcases List.mem_cons.1 hx with rfl | hx
          · exact absurd h hk
          · exact ⟨x, hx, h⟩
        · rintro ⟨x, hx, h⟩; exact ⟨x, by simp [hx], h⟩
      have e2 : ((b :: bs).filter fun b => decide (b.key sp = k)) = bs.filter fun b => decide (b.key sp = k) := by
        rw [List.filter_cons, if_neg (by simpa using hk)]
      rw [e2]
      simp only [e1]

theorem addBlocks_keys (sp : Char → Bool) (bs : List Block) :
    (bs.foldl (addBlock sp) []).keys = Lists.uniq id (bs.map (Block.key sp)) := by
  induction bs using List.reverseRecOn with
  | nil => rfl
  | append_singleton bs b ih =>
    rw [List.foldl_append, List.foldl_cons, List.foldl_nil, addBlock, Dict.keys_set, ih]
    simp only [List.map_append, List.map_cons, List.map_nil]
    unfold Lists.uniq at *
    rw [Lists.uniqLoop_append]
    have hmem : ∀ x, x ∈ Lists.uniqLoop id [] (bs.map (Block.key sp)) ↔ x ∈ bs.map (Block.key sp) :=
      fun x => Lists.mem_uniq (bs.map (Block.key sp)) x
    simp only [List.nil_append, List.map_id, Lists.uniqLoop, id]
    by_cases hb : b.key sp ∈ bs.map (Block.key sp)
    · rw [if_pos ((hmem _).2 hb), if_pos (by simpa using hb)]; simp
    · rw [if_neg (fun h => hb ((hmem _).1 h)), if_neg (by simpa using hb)]

/-- C38. The lines fall into blocks, each of which starts at an entry `key: value` and goes up to the next
entry that is not indented more; nothing is left out but the lines before the first entry. The dict has the keys of the
blocks, in the order of their first occurrence, and under each key the values and lines of all its blocks, in order. -/
theorem C38_blocks (sp : Char → Bool) (lines : List Str) :
    ∃ pre bs, Blocks sp lines pre bs ∧
      (dictLines sp lines).keys = Lists.uniq id (bs.map (Block.key sp)) ∧
      ∀ k, (dictLines sp lines).get? k =
        if ∃ b ∈ bs, b.key sp = k then some ((bs.filter fun b => b.key sp = k).flatMap Block.value) else none := by
  obtain ⟨pre, bs, hb, hst⟩ := dictStep_blocks sp lines
  refine ⟨pre, bs, hb, ?_, ?_⟩
  · unfold dictLines; rw [hst]; exact addBlocks_keys sp bs
  · intro k
    unfold dictLines
    rw [hst]
    have := addBlocks_get sp bs [] k
    simpa [Dict.get?] using this

/-- The blocks of a text are determined by the conditions. -/
theorem C38_blocks_unique (sp : Char → Bool) (lines pre pre' : List Str) (bs bs' : List Block)
    (h : Blocks sp lines pre bs) (h' : Blocks sp lines pre' bs') : pre = pre' ∧ bs = bs' := by
  -- the first parts
  have fst : ∀ (pre pre' : List Str) (ls ls' : List Str), pre ++ ls = pre' ++ ls' →
      (∀ l ∈ pre, matchEntry sp l = none) → (∀ l ∈ pre', matchEntry sp l = none) →
      (∀ l, ls.head? = some l → matchEntry sp l ≠ none) → (∀ l, ls'.head? = some l → matchEntry sp l ≠ none) →
      pre = pre' ∧ ls = ls' := by
    intro pre
    induction pre with
    | nil =>
      intro pre' ls ls' e _ h2 h3 _
      cases pre' with
      | nil => exact ⟨rfl, e⟩
      | cons x p =>
        simp at e; subst e
        exact absurd (h2 x (by simp)) (h3 x rfl)
    | cons x p ih =>
      intro pre' ls ls' e h1 h2 h3 h4
      cases pre' with
      | nil =>
        simp at e; subst e
        exact absurd (h1 x (by simp)) (h4 x rfl)
      | cons y p' =>
        simp at e
        obtain ⟨rfl, e⟩ := e
        obtain ⟨a, b⟩ := ih p' ls ls' e (fun l hl => h1 l (by simp [hl])) (fun l hl => h2 l (by simp [hl])) h3 h4
        exact ⟨by rw [a], b⟩
  have hd : ∀ bs : List Block, (∀ b ∈ bs, matchEntry sp b.head = some b.entry) →
      ∀ l, (bs.flatMap Block.lines).head? = some l → matchEntry sp l ≠ none := by
    intro bs hb l hl
    cases bs with
    | nil => simp at hl
    | cons b bs =>
      simp [Block.lines] at hl
      subst hl
      rw [hb b (by simp)]; simp
  obtain ⟨e1, e2⟩ := fst pre pre' _ _ (h.all.symm.trans h'.all) h.noEntry h'.noEntry (hd bs h.heads) (hd bs' h'.heads)
  refine ⟨e1, ?_⟩
  have g1 := h.heads; have g2 := h.bodies; have g3 := h.levels
  have g1' := h'.heads; have g2' := h'.bodies; have g3' := h'.levels
  clear h h' e1 fst hd
  -- the bodies
  have body : ∀ (n : Nat) (x y : List Str) (ls ls' : List Str), x ++ ls = y ++ ls' →
      (∀ l ∈ x, ∀ e, matchEntry sp l = some e → e.level > n) → (∀ l ∈ y, ∀ e, matchEntry sp l = some e → e.level > n) →
      (∀ l, ls.head? = some l → ∃ e, matchEntry sp l = some e ∧ e.level ≤ n) →
      (∀ l, ls'.head? = some l → ∃ e, matchEntry sp l = some e ∧ e.level ≤ n) → x = y ∧ ls = ls' := by
    intro n x
    induction x with
    | nil =>
      intro y ls ls' e _ h2 h3 _
      cases y with
      | nil => exact ⟨rfl, e⟩
      | cons z p =>
        simp at e; subst e
        obtain ⟨e, he, hl⟩ := h3 z rfl
        have := h2 z (by simp) e he
        omega
    | cons z p ih =>
      intro y ls ls' e h1 h2 h3 h4
      cases y with
      | nil =>
        simp at e; subst e
        obtain ⟨e, he, hl⟩ := h4 z rfl
        have := h1 z (by simp) e he
        omega
      | cons w q =>
        simp at e
        obtain ⟨rfl, e⟩ := e
        obtain ⟨a, b⟩ := ih q ls ls' e (fun l hl => h1 l (by simp [hl])) (fun l hl => h2 l (by simp [hl])) h3 h4
        exact ⟨by rw [a], b⟩
  clear pre pre' lines
  induction bs generalizing bs' with
  | nil =>
    cases bs' with
    | nil => rfl
    | cons b bs => simp [Block.lines] at e2
  | cons b bs ih =>
    cases bs' with
    | nil => simp [Block.lines] at e2
    | cons b' bs' =>
      simp only [List.flatMap_cons, Block.lines, List.cons_append, List.cons.injEq] at e2
      obtain ⟨eh, et⟩ := e2
      have ee : b.entry = b'.entry := by
        have h1 := g1 b (by simp); have h2 := g1' b' (by simp)
        rw [eh, h2] at h1; simpa using h1.symm
      have heads : ∀ (b : Block) (bs : List Block), (∀ x ∈ b :: bs, matchEntry sp x.head = some x.entry) →
          (b :: bs).IsChain (fun b b' => b'.entry.level ≤ b.entry.level) →
          ∀ l, (bs.flatMap Block.lines).head? = some l → ∃ e, matchEntry sp l = some e ∧ e.level ≤ b.entry.level := by
        intro b bs hh hc l hl
        cases bs with
        | nil => simp at hl
        | cons c bs =>
          simp [Block.lines] at hl
          subst hl
          rw [List.isChain_cons] at hc
          exact ⟨c.entry, hh c (by simp), hc.1 c (by simp)⟩
      obtain ⟨a1, a2⟩ := body b.entry.level b.body b'.body _ _ et (g2 b (by simp))
        (by rw [ee]; exact g2' b' (by simp)) (heads b bs g1 g3) (by rw [ee]; exact heads b' bs' g1' g3')
      have : b = b' := by
        cases b; cases b'
        simp only [] at eh ee a1
        rw [eh, ee, a1]
      subst this
      rw [List.isChain_cons] at g3 g3'
      rw [ih bs' a2 (fun x hx => g1 x (by simp [hx])) (fun x hx => g2 x (by simp [hx])) g3.2
        (fun x hx => g1' x (by simp [hx])) (fun x hx => g2' x (by simp [hx])) g3'.2]

/-- C38. What an entry line is: indentation, a key that does not start with a space or a colon, a colon, and the
value without leading spaces. -/
theorem C38_entry (sp : Char → Bool) (ind key rest : Str) (hind : ∀ c ∈ ind, sp c = true) (hk : GoodKey key)
    (hsp : ∀ c t, key = c :: t → sp c = false) :
    matchEntry sp (ind ++ (key ++ ':' :: rest)) = some ⟨ind.length, key, rest.dropWhile sp⟩ := by
  have htw : (ind ++ (key ++ ':' :: rest)).takeWhile sp = ind := by
    rw [List.takeWhile_append_of_pos hind]
    cases key with
    | nil => exact absurd rfl hk.1
    | cons c t => simp [List.takeWhile_cons, hsp c t rfl]
  unfold matchEntry
  rw [htw]
  cases hl : ind.length with
  | zero =>
    have : ind = [] := List.length_eq_zero_iff.1 hl
    subst this
    simp only [matchEntryAt, List.nil_append, findColon_key key rest hk]
    rfl
  | succ n =>
    simp only [matchEntryAt, ← hl, List.drop_left, findColon_key key rest hk]

/-- C38. A line without a colon, or whose colons are all escaped or the first character, is no entry. -/
theorem C38_no_entry (sp : Char → Bool) (line : Str)
    (h : ∀ a r, line = a ++ ':' :: r → a ≠ [] → a.getLast? = some '\\') : matchEntry sp line = none := by
  have hf : ∀ n, findColon none (line.drop n) = none := by
    intro n
    cases hc : findColon none (line.drop n) with
    | none => rfl
    | some kr =>
      obtain ⟨k, r⟩ := kr
      obtain ⟨h1, h2, _, h3⟩ := findColon_key_some _ _ _ hc
      exfalso
      have hline : line = line.take n ++ k ++ ':' :: r := by
        rw [List.append_assoc, ← h1, List.take_append_drop]
      have := h (line.take n ++ k) r hline (by simp [h2])
      rw [List.getLast?_append] at this
      cases hk : k.getLast? with
      | none => simp [List.getLast?_eq_none_iff] at hk; exact h2 hk
      | some x => rw [hk] at this h3; simp at this; subst this; exact h3 rfl
  unfold matchEntry
  generalize (line.takeWhile sp).length = n
  induction n with
  | zero => have := hf 0; simp at this; simp [matchEntryAt, this]
  | succ n ih => simp [matchEntryAt, hf, ih]


theorem unescape_of_none (l : Str) (h : ¬ ['\\', ':'] <:+: l) : unescape l = l := by
  unfold unescape replace
  rw [split_of_not_infix _ _ (by simp) h]
  rfl

/-- Indented text that does not start with a colon never counts as an entry at level 0. -/
theorem matchEntry_indented (sp : Char → Bool) (hcol : sp ':' = false) (a b : Str) (c : Char) (ha : a ≠ [])
    (hsp : ∀ x ∈ a, sp x = true) (hc : sp c = false) (hc' : c ≠ ':') (e : Entry)
    (h : matchEntry sp (a ++ c :: b) = some e) : 0 < e.level := by
  have htw : (a ++ c :: b).takeWhile sp = a := by
    rw [List.takeWhile_append_of_pos hsp]; simp [List.takeWhile_cons, hc]
  unfold matchEntry at h
  rw [htw] at h
  cases hf : findColon none (c :: b) with
  | some kr =>
    cases hl : a.length with
    | zero => exact absurd (List.length_eq_zero_iff.1 hl) ha
    | succ n =>
      rw [hl, matchEntryAt, ← hl, List.drop_left, hf] at h
      simp only [Option.some.injEq] at h
      subst h
      show 0 < a.length
      omega
  | none =>
    exfalso
    have hcb : ∀ u r, c :: b = u ++ ':' :: r → u.getLast? = some '\\' := by
      intro u r hu
      cases u with
      | nil => simp at hu; exact absurd hu.1 hc'
      | cons u0 u =>
        simp only [List.cons_append, List.cons.injEq] at hu
        obtain ⟨rfl, hb⟩ := hu
        simp only [findColon, Option.map_eq_none_iff] at hf
        exact findColon_none c b hf u r hb
    have hnone : matchEntry sp (a ++ c :: b) = none := by
      apply C38_no_entry
      intro u r hu hne
      rw [List.append_eq_append_iff] at hu
      rcases hu with ⟨w, rfl, hw⟩ | ⟨w, rfl, hw⟩
      · have := hcb w r hw
        rw [List.getLast?_append, this]; rfl
      · cases w with
        | nil => simp at hw; exact absurd hw.1.symm hc'
        | cons w0 w =>
          simp only [List.cons_append, List.cons.injEq] at hw
          have := hsp w0 (by simp)
          rw [← hw.1, hcol] at this
          simp at this
    unfold matchEntry at hnone
    rw [htw, h] at hnone
    simp at hnone

/-- The block an item spells. -/
def Item.block (it : Item) : Block := ⟨it.key ++ ':' :: ' ' :: it.first, ⟨0, it.key, it.first⟩, it.more⟩

theorem goodKey_of_plain (k : Str) (h0 : k ≠ []) (h1 : ':' ∉ k) (h2 : k.getLast? ≠ some '\\') : GoodKey k :=
  ⟨h0, fun a b h => absurd (by rw [h]; simp) h1, h2⟩

theorem items_blocks (sp : Char → Bool) (hsp : sp ' ' = true) (hcol : sp ':' = false) (its : List Item)
    (h : ∀ it ∈ its, it.Good sp) : Blocks sp (its.flatMap Item.lines) [] (its.map Item.block) where
  all := by rw [List.nil_append, List.flatMap_map]; rfl
  noEntry := by simp
  heads := by
    intro b hb
    obtain ⟨it, hit, rfl⟩ := List.mem_map.1 hb
    have hg := h it hit
    have := C38_entry sp [] it.key (' ' :: it.first) (by simp)
      (goodKey_of_plain _ hg.key.1 hg.key.2.1 hg.key.2.2.1) hg.key.2.2.2.2
    simp only [List.nil_append, List.length_nil, List.dropWhile_cons, hsp, if_true, hg.first] at this
    exact this
  bodies := by
    intro b hb l hl e he
    obtain ⟨it, hit, rfl⟩ := List.mem_map.1 hb
    obtain ⟨⟨a, c, b, rfl, ha, hsa, hc, hc'⟩, _⟩ := (h it hit).more l hl
    exact matchEntry_indented sp hcol a b c ha hsa hc hc' e he
  levels := by
    induction its with
    | nil => exact List.IsChain.nil
    | cons it its ih =>
      rw [List.map_cons, List.isChain_cons]
      refine ⟨?_, ih fun x hx => h x (by simp [hx])⟩
      intro y hy
      cases its with
      | nil => simp at hy
      | cons z zs => simp at hy; subst hy; simp [Item.block]

theorem addBlocks_distinct (sp : Char → Bool) (bs : List Block) (d : Dict Str (List Str))
    (hn : (bs.map (Block.key sp)).Nodup) (hd : ∀ b ∈ bs, b.key sp ∉ d.keys) :
    bs.foldl (addBlock sp) d = d ++ bs.map fun b => (b.key sp, b.value) := by
  induction bs generalizing d with
  | nil => simp
  | cons b bs ih =>
    have hb := hd b (by simp)
    have hg : d.get? (b.key sp) = none := (Dict.get?_eq_none_iff d _).2 hb
    have hset : ∀ v, d.set (b.key sp) v = d ++ [(b.key sp, v)] := by
      intro v; exact Dict.set_new d _ v hb
    rw [List.map_cons, List.nodup_cons] at hn
    rw [List.foldl_cons, addBlock, hg, hset, ih _ hn.2]
    · simp
    · intro b' hb'
      simp only [Dict.keys, List.map_append, List.map_cons, List.map_nil, List.mem_append, List.mem_singleton]
      rintro (h | h)
      · exact hd b' (by simp [hb']) h
      · exact hn.1 (List.mem_map.2 ⟨b', hb', h⟩)

theorem dictLines_items (sp : Char → Bool) (hsp : sp ' ' = true) (hcol : sp ':' = false) (its : List Item)
    (h : ∀ it ∈ its, it.Good sp) (hn : (its.map Item.key).Nodup) :
    dictLines sp (its.flatMap Item.lines) = its.map fun it => (it.key, it.first :: it.more) := by
  obtain ⟨pre, bs, hb, hst⟩ := dictStep_blocks sp (its.flatMap Item.lines)
  obtain ⟨rfl, rfl⟩ := C38_blocks_unique sp _ _ _ _ _ hb (items_blocks sp hsp hcol its h)
  unfold dictLines
  rw [hst]
  have hk : (its.map Item.block).map (Block.key sp) = its.map Item.key := by
    rw [List.map_map]
    exact List.map_congr_left fun it hit => (h it hit).key.2.2.2.1
  rw [addBlocks_distinct sp _ [] (by rw [hk]; exact hn) (by simp [Dict.keys]), List.nil_append, List.map_map]
  refine List.map_congr_left fun it hit => ?_
  have h1 : Block.key sp it.block = it.key := (h it hit).key.2.2.2.1
  have h2 : it.more.map (fun l => unescape (l.drop 0)) = it.more := by
    conv => rhs; rw [← List.map_id it.more]
    refine List.map_congr_left fun l hl => ?_
    rw [List.drop_zero, unescape_of_none l ((h it hit).more l hl).2]; rfl
  simp only [Function.comp, h1, Prod.mk.injEq, true_and]
  show it.first :: it.more.map (fun l => unescape (l.drop 0)) = _
  rw [h2]

theorem splitlines_one (brk : Char → Bool) (l : Str) (h : ∀ c ∈ l, brk c = false) (hl : l ≠ []) :
    splitlinesGo brk false l = [l] := by
  induction l with
  | nil => exact absurd rfl hl
  | cons c t ih =>
    have hc : brk c = false := h c (by simp)
    cases t with
    | nil => simp [splitlinesGo, hc]
    | cons x t =>
      rw [splitlinesGo, ih (fun c hc => h c (by simp [hc])) (by simp)]
      simp [hc]

theorem splitlines_cons (brk : Char → Bool) (l r : Str) (hb : brk '\n' = true) (h : ∀ c ∈ l, brk c = false) :
    splitlinesGo brk false (l ++ '\n' :: r) = l :: splitlinesGo brk false r := by
  induction l with
  | nil => simp [splitlinesGo, hb]
  | cons c t ih =>
    have hc : brk c = false := h c (by simp)
    rw [List.cons_append, splitlinesGo, ih (fun c hc => h c (by simp [hc]))]
    simp [hc]

/-- Lines without line breaks, of which the last is not empty, are the lines of the text they make up. -/
theorem splitlines_join (brk : Char → Bool) (hb : brk '\n' = true) (ls : List Str)
    (h : ∀ l ∈ ls, l ≠ [] ∧ ∀ c ∈ l, brk c = false) : splitlines brk (join ['\n'] ls) = ls := by
  induction ls with
  | nil => rfl
  | cons l ls ih =>
    cases ls with
    | nil => exact splitlines_one brk l (h l (by simp)).2 (h l (by simp)).1
    | cons x xs =>
      rw [join_cons _ _ _ (by simp), List.append_assoc]
      show splitlinesGo brk false (l ++ '\n' :: join ['\n'] (x :: xs)) = _
      rw [splitlines_cons brk l _ hb (h l (by simp)).2]
      rw [show splitlinesGo brk false (join ['\n'] (x :: xs)) = x :: xs from ih fun l hl => h l (by simp [hl])]

/-- C38. The text that spells a dict is parsed to that dict: each key with its first line and the lines below, joined by newlines. -/
theorem C38_round_trip (sp brk : Char → Bool) (hsp : sp ' ' = true) (hcol : sp ':' = false) (hb : brk '\n' = true)
    (hbc : brk ':' = false) (hbs : brk ' ' = false) (its : List Item)
    (h : ∀ it ∈ its, it.Good sp) (hn : (its.map Item.key).Nodup)
    (hl : ∀ it ∈ its, (∀ c ∈ it.key, brk c = false) ∧ (∀ c ∈ it.first, brk c = false) ∧
      ∀ l ∈ it.more, ∀ c ∈ l, brk c = false) :
    strToDict sp brk (join ['\n'] (its.flatMap Item.lines)) false =
      its.map fun it => (it.key, strip (· = '\n') (join ['\n'] (it.first :: it.more))) := by
  unfold strToDict
  rw [splitlines_join brk hb, dictLines_items sp hsp hcol its h hn, List.map_map]
  · rfl
  · intro l hlm
    obtain ⟨it, hit, hm⟩ := List.mem_flatMap.1 hlm
    obtain ⟨h1, h2, h3⟩ := hl it hit
    rcases List.mem_cons.1 hm with rfl | hm
    · refine ⟨by simp, fun c hc => ?_⟩
      simp only [List.mem_append, List.mem_cons] at hc
      rcases hc with hc | rfl | rfl | hc
      · exact h1 c hc
      · exact hbc
      · exact hbs
      · exact h2 c hc
    · refine ⟨?_, h3 l hm⟩
      obtain ⟨⟨a, c, b, rfl, _⟩, _⟩ := (h it hit).more l hm
      simp

/-- The conditions of `C38_round_trip` are met by the items of a header, and the result is the dict. -/
example : strToDict asciiSp asciiBrk "first: one\nsecond: \n  multi: line\n  entry\nthird: 3".toList false =
    [("first".toList, "one".toList), ("second".toList, "  multi: line\n  entry".toList), ("third".toList, "3".toList)] := by
  decide

example : (⟨"second".toList, [], ["  multi: line".toList]⟩ : Item).Good asciiSp where
  key := by refine ⟨by decide, by decide, by decide, by decide, ?_⟩; rintro c t h; simp at h; obtain ⟨rfl, _⟩ := h; decide
  first := rfl
  more := by
    intro l hl
    simp only [List.mem_singleton] at hl
    subst hl
    refine ⟨⟨"  ".toList, 'm', "ulti: line".toList, by decide, by decide, by decide, by decide, by decide⟩, ?_⟩
    rintro ⟨a, b, h⟩
    have : '\\' ∈ "  multi: line".toList := by rw [← h]; simp
    revert this; decide

/-- Findings. Lines before the first key are dropped. An indented line that starts with a colon is an entry with an
empty key, and ends the entry it was meant for. Quotes removal turns a blank value into twice that value. -/
theorem C38_odd_lines :
    strToDict asciiSp asciiBrk "lost\na: 1".toList true = [("a".toList, "1".toList)] ∧
    strToDict asciiSp asciiBrk "a:\n : 1\n b: 2".toList true = [("a".toList, []), ([], "1\n b: 2".toList)] ∧
    stripEndQuotes asciiSp asciiBrk "  ".toList = "    ".toList := by decide

end Verif.Utils
