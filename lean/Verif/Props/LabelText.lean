import Verif.Lemmas.LabelText
import Verif.Props.Labels
import Verif.Props.Macros
import Verif.Props.Typography

/-!
# C55: titles, identifiers and texts of labels
-/

namespace Verif.LabelText

open Verif Verif.Labels Verif.Labels.Spec

/-! ### Titles -/

/-- C55. The title of a text is made of the words of its first sentence. -/
theorem C55_title (title : Str → Str) (s t : Str) : titlelize title true false s = t ↔ IsTitle s t := by
  constructor
  · rintro rfl
    obtain ⟨first, hf⟩ := firstSentence_exists ([' '].intercalate ((split ['\n'] s).filter (· ≠ [])))
    refine ⟨split ['\n'] s, _, split [' '] first, first, split_ne_nil _ _, split_char_not_mem _ _, ?_, rfl, hf,
      split_ne_nil _ _, split_char_not_mem _ _, ?_, ?_⟩
    · rw [← join_eq_intercalate, join_split _ _ (by simp)]
    · rw [← join_eq_intercalate, join_split _ _ (by simp)]
    · rw [← join_eq_intercalate] at hf
      have := firstSentence_split _ _ hf
      simp only [titlelize, if_true, this]
      rw [← join_eq_intercalate]
      exact strip_trimmed _
  · rintro ⟨lines, sentence, pieces, first, h1, h2, rfl, rfl, h3, h4, h5, rfl, h6⟩
    rw [← join_eq_intercalate, ← join_eq_intercalate] at h3
    rw [← join_eq_intercalate] at h6
    simp only [titlelize, if_true]
    rw [← join_eq_intercalate, split_join _ _ h1 h2, firstSentence_split _ _ h3, split_join _ _ h4 h5]
    exact trimmed_strip _ _ h6

/-- C55. A title is one line with single spaces, and has no period at its ends. -/
theorem C55_title_clean (title : Str → Str) (s : Str) :
    '\n' ∉ titlelize title true false s ∧ ¬ "  ".toList <:+: titlelize title true false s ∧
    (titlelize title true false s).head? ≠ some '.' ∧ (titlelize title true false s).getLast? ≠ some '.' := by
  have key : ∀ t, IsTitle s t → '\n' ∉ t ∧ ¬ "  ".toList <:+: t ∧ t.head? ≠ some '.' ∧ t.getLast? ≠ some '.' := by
    rintro t ⟨lines, sentence, pieces, first, h1, h2, rfl, rfl, h3, h4, h5, h6, a, b, h7, -, -, h8, h9⟩
    have hmem : ∀ (d : Char) (l : List Str) (c : Char), c ≠ d → c ∈ [d].intercalate l → ∃ w ∈ l, c ∈ w := by
      intro d l c hc h
      rw [← join_eq_intercalate] at h
      induction l with
      | nil => simp [join] at h
      | cons w l ih =>
        cases l with
        | nil => exact ⟨w, by simp, by simpa [join] using h⟩
        | cons v l =>
          rw [join_cons _ _ _ (by simp)] at h
          simp only [List.append_assoc, List.mem_append, List.mem_singleton] at h
          rcases h with h | h | h
          · exact ⟨w, by simp, h⟩
          · exact absurd h hc
          · obtain ⟨u, hu, hcu⟩ := ih h
            exact ⟨u, by simp [hu], hcu⟩
    refine ⟨?_, ?_, h8, h9⟩
    · intro hn
      have m1 : '\n' ∈ [' '].intercalate (pieces.filter (· ≠ [])) := by rw [h7]; simp [hn]
      obtain ⟨w, hw, hcw⟩ := hmem ' ' _ '\n' (by decide) m1
      have m2 : '\n' ∈ first := by
        rw [h6, ← join_eq_intercalate]
        obtain ⟨x, y, e⟩ := List.append_of_mem (List.mem_of_mem_filter hw)
        rw [e]
        cases x with
        | nil => cases y with
          | nil => simpa [join] using hcw
          | cons v y => rw [List.nil_append, join_cons _ _ _ (by simp)]; simp [hcw]
        | cons v x =>
          rw [joinAppend _ _ _ (by simp) (by simp)]
          cases y with
          | nil => simp [join, hcw]
          | cons u y => rw [join_cons _ w _ (by simp)]; simp [hcw]
      have m3 : '\n' ∈ [' '].intercalate (lines.filter (· ≠ [])) := by
        generalize [' '].intercalate (lines.filter (· ≠ [])) = z at h3
        cases h3 with
        | all _ _ => exact m2
        | cut _ r _ => simp [m2]
      obtain ⟨l, hl, hcl⟩ := hmem ' ' _ '\n' (by decide) m3
      exact h2 l (List.mem_of_mem_filter hl) hcl
    · intro hd
      have := (join_single (pieces.filter (· ≠ [])) (fun w hw => by
        rw [List.mem_filter] at hw
        exact ⟨by simpa using hw.2, h5 w hw.1⟩)).1
      rw [join_eq_intercalate, h7] at this
      exact this (hd.trans ⟨a, b, rfl⟩)
  exact key _ ((C55_title title s _).1 rfl)

/-- C55. A text that is one sentence in one line with single spaces, and without periods at its ends, is its own title. -/
theorem C55_title_same (title : Str → Str) (s : Str) (h1 : '\n' ∉ s) (h2 : ¬ "  ".toList <:+: s)
    (h3 : s.head? ≠ some ' ') (h4 : s.getLast? ≠ some ' ') (h5 : ¬ ". ".toList <:+: s) (h6 : s.head? ≠ some '.')
    (h7 : s.getLast? ≠ some '.') : titlelize title true false s = s := by
  rw [C55_title]
  have hj : s = join [' '] (split [' '] s) := (join_split _ _ (by simp)).symm
  have hl : [' '].intercalate ([s].filter (· ≠ [])) = s := by
    by_cases hs : s = []
    · subst hs; rfl
    · simp [hs, List.intercalate]
  have hp : [' '].intercalate ((split [' '] s).filter (· ≠ [])) = s := by
    by_cases hs : s = []
    · subst hs; rfl
    · rw [List.filter_eq_self.2, ← join_eq_intercalate, ← hj]
      intro w hw
      have := pieces_ne_nil (split [' '] s) (by rw [← hj]; exact hs) (by rw [← hj]; exact h3) (by rw [← hj]; exact h4)
        (by rw [← hj]; exact h2) w hw
      simpa using this
  refine ⟨[s], _, split [' '] s, s, by simp, by simpa using h1, by simp [List.intercalate], rfl, ?_, split_ne_nil _ _,
    split_char_not_mem _ _, ?_, ?_⟩
  · rw [hl]; exact .all s h5
  · rw [← join_eq_intercalate]; exact hj
  · rw [hp]; exact ⟨[], [], by simp, by simp, by simp, h6, h7⟩

/-- Finding: a title need not be its own title; a space next to a period is left at the end. -/
theorem C55_title_not_stable (title : Str → Str) : titlelize title true false "a .".toList = "a ".toList ∧
    titlelize title true false "a ".toList = "a".toList := ⟨rfl, rfl⟩

example (title : Str → Str) : titlelize title true false "My example\n\ncaption. It has 2 sentences".toList =
    "My example caption".toList := rfl

/-- Finding: a heading is cut at the first period with a space behind it, also behind an abbreviation, and the rest
of the heading is not shown anywhere. -/
theorem C55_title_cut (title : Str → Str) :
    titlelize title true false "Comparison of NMR vs. EPR".toList = "Comparison of NMR vs".toList := rfl

/-! ### Identifiers -/

/-- C55. A heading gets a label in its own document: with the identifier that is given, or one that begins with the
abbreviation of its level; with the short title, or the title made of its text. It can be looked up by its
document and identifier, whatever happens to other documents. -/
theorem C55_heading (x : Ext) (sep docId : Str) (hs : sep ≠ []) (m : Manager) (hm : Reachable sep m) (count : Nat) (level : Level)
    (t : Source) (m' : Manager) (count' : Nat) (l : Label) (id : Str)
    (h : headingLabel x sep docId m count level t = ((m', count'), some (l, id))) (hid : ¬ sep <:+: id) :
    (∀ i, t.id = some i → id = i) ∧ (t.id = none → ∃ r, id = level.abbr ++ ':' :: r) ∧
    l.docId = docId ∧ l.id = id ∧ l.kind = some ["heading".toList, level.name] ∧
    (∀ s, t.short = some s → l.title = s) ∧ (t.short = none → IsTitle t.text l.title) ∧ m'.values = m.values ++ [l] ∧
    ∀ (ops : List Op), (∀ op ∈ ops, Keeps docId op) → ∀ env : Labels.Env, (∀ ids, env.docIds = some ids → docId ∈ ids) →
      ∀ id', parseId sep id' = (some docId, id) →
        ∃ l', ((m'.run sep ops).getLabel env sep id').2 = some l' ∧ given l' = given l := by
  simp only [headingLabel, createLabel, Prod.mk.injEq, Option.map_eq_some_iff] at h
  obtain ⟨⟨h1, h2⟩, l', h3, h4, h5⟩ := h
  subst h4
  rw [h5] at h1 h3
  have hp : parseId sep id = (none, id) := by
    unfold parseId
    rw [split_of_not_infix sep id hs hid]
  obtain ⟨a1, a2⟩ := C10_add sep m hm id (some ["heading".toList, level.name]) docId true (t.short.getD (x.condense t.text))
  simp only [hp, Option.getD_none] at a1 a2
  have hno : ¬ ∃ l ∈ m.values, l.docId = docId ∧ l.id = id := by
    intro hex
    rw [(a1 hex).1] at h3
    cases h3
  obtain ⟨l'', b1, b2, b3, b4, b5, b6⟩ := a2 hno
  rw [h3, Option.some.injEq] at b1
  subst b1
  refine ⟨?_, ?_, b2, b3, b4, ?_, ?_, ?_, ?_⟩
  · intro i hi
    rw [← h5]
    simp [headingId, hi]
  · intro hi
    rw [← h5]
    simp only [headingId, hi, join]
    exact ⟨(generateLabelId x docId count t).1, by simp⟩
  · intro s hsh; rw [b5, hsh]; rfl
  · intro hsh
    rw [b5, hsh, Option.getD_none, ← C55_title x.title]
    rfl
  · rw [← h1]; exact b6
  · intro ops hops env henv id' hid'
    rw [← b2] at hops henv
    refine C11_added_is_found sep m hm id _ docId true _ l' m' (Prod.ext h1 h3) ops hops env henv id' ?_
    rw [b2, b3]; exact hid'

theorem dropWhile_nil (p : Char → Bool) (s : Str) : s.dropWhile p = [] ↔ ∀ c ∈ s, p c = true := by
  induction s with
  | nil => simp
  | cons c s ih =>
    rw [List.dropWhile_cons]
    cases hc : p c with
    | true => simp [ih, hc]
    | false => simp [hc]

theorem strip_nil (p : Char → Bool) (s : Str) : strip p s = [] ↔ ∀ c ∈ s, p c = true := by
  rw [strip, rstrip, lstrip, List.reverse_eq_nil_iff, dropWhile_nil]
  constructor
  · intro h
    have : s.dropWhile p = [] := by
      cases hd : s.dropWhile p with
      | nil => rfl
      | cons c r =>
        have h1 := h c (by simp [hd])
        have h2 : p c = false := by
          have := List.head?_dropWhile_not p s
          rw [hd] at this
          simpa using this
        rw [h1] at h2; cases h2
    exact (dropWhile_nil p s).1 this
  · intro h c hc
    rw [(dropWhile_nil p s).2 h] at hc
    simp at hc

/-- C55. The identifier of a heading without one is made of its level, its document, and the title of its short text or its
text; that of a heading without text of its level, its document and the next number. -/
theorem C55_heading_id (x : Ext) (docId : Str) (count : Nat) (level : Level) (t : Source) (hid : t.id = none) :
    (∀ s title, t.short = some s → IsTitle s title →
      headingId x docId count level t = (level.abbr ++ ':' :: x.slug (docId ++ '-' :: title), count)) ∧
    (∀ title, t.short = none → (t.plain = false ∨ ∃ c ∈ t.text, x.sp c = false) → IsTitle t.text title →
      headingId x docId count level t = (level.abbr ++ ':' :: x.slug (docId ++ '-' :: title), count)) ∧
    (t.short = none → t.plain = true → (∀ c ∈ t.text, x.sp c = true) →
      headingId x docId count level t = (level.abbr ++ ':' :: (x.slug docId ++ '-' :: Nat.toDigits 10 (count + 1)), count + 1)) := by
  refine ⟨?_, ?_, ?_⟩
  · intro s title hs ht
    have := (C55_title x.title s title).2 ht
    simp [headingId, generateLabelId, hid, hs, Ext.condense, this, join, List.intercalate, List.intersperse]
  · intro title hs hp ht
    have := (C55_title x.title t.text title).2 ht
    have hne : (t.plain && strip x.sp t.text = []) = false := by
      rcases hp with hp | ⟨c, hc, hsp⟩
      · simp [hp]
      · have : strip x.sp t.text ≠ [] := by
          intro h0
          rw [(strip_nil x.sp t.text).1 h0 c hc] at hsp
          cases hsp
        simp [this]
    simp [headingId, generateLabelId, hid, hs, Ext.condense, this, join, List.intercalate, List.intersperse, hne]
  · intro hs hp ht
    have : strip x.sp t.text = [] := (strip_nil _ _).2 ht
    simp [headingId, generateLabelId, hid, hs, this, hp, join, List.intercalate, List.intersperse]

/-- C55. A heading whose identifier is in use in its document is an error (`DuplicateLabel`), and the labels stay as they
are; otherwise there is no error. -/
theorem C55_duplicate (x : Ext) (sep docId : Str) (hs : sep ≠ []) (m : Manager) (hm : Reachable sep m) (count : Nat) (level : Level)
    (t : Source) (id : Str) (h : (headingId x docId count level t).1 = id) (hid : ¬ sep <:+: id) :
    ((headingLabel x sep docId m count level t).2 = none ↔ ∃ l ∈ m.values, l.docId = docId ∧ l.id = id) ∧
    ((headingLabel x sep docId m count level t).2 = none → (headingLabel x sep docId m count level t).1.1.values = m.values) := by
  have hp : parseId sep id = (none, id) := by
    unfold parseId
    rw [split_of_not_infix sep id hs hid]
  obtain ⟨a1, a2⟩ := C10_add sep m hm id (some ["heading".toList, level.name]) docId true (t.short.getD (x.condense t.text))
  simp only [hp, Option.getD_none] at a1 a2
  simp only [headingLabel, createLabel, h, Option.map_eq_none_iff]
  by_cases hex : ∃ l ∈ m.values, l.docId = docId ∧ l.id = id
  · exact ⟨⟨fun _ => hex, fun _ => (a1 hex).1⟩, fun _ => (a1 hex).2⟩
  · obtain ⟨l, b1, _⟩ := a2 hex
    rw [b1]
    exact ⟨⟨fun h => (nomatch h), fun h => absurd h hex⟩, fun h => (nomatch h)⟩

/-- Finding: two headings of the same level with the same title (and no identifier) in a document cannot both be
labelled: the second one is an error. -/
theorem C55_same_title (x : Ext) (sep docId : Str) (hs : sep ≠ []) (m : Manager) (hm : Reachable sep m) (count count2 : Nat)
    (level : Level) (t t' : Source) (ht : t.id = none ∧ t.short = none ∧ strip x.sp t.text ≠ [])
    (ht' : t'.id = none ∧ t'.short = none ∧ strip x.sp t'.text ≠ [])
    (hsame : ∃ title, IsTitle t.text title ∧ IsTitle t'.text title)
    (m' : Manager) (count' : Nat) (l : Label) (id : Str)
    (h : headingLabel x sep docId m count level t = ((m', count'), some (l, id))) (hid : ¬ sep <:+: id) :
    (headingLabel x sep docId m' count2 level t').2 = none := by
  obtain ⟨title, h1, h2⟩ := hsame
  obtain ⟨_, _, c1, c2, _, _, _, c3, _⟩ := C55_heading x sep docId hs m hm count level t m' count' l id h hid
  have hid1 : id = (headingId x docId count level t).1 := by
    simp only [headingLabel, Prod.mk.injEq, Option.map_eq_some_iff] at h
    obtain ⟨_, _, _, _, h5⟩ := h
    exact h5.symm
  have hid2 : (headingId x docId count2 level t').1 = id := by
    rw [hid1]
    simp only [headingId, generateLabelId, ht.1, ht.2.1, ht'.1, ht'.2.1]
    rw [if_neg (by simp [ht'.2.2]), if_neg (by simp [ht.2.2])]
    simp only [Ext.condense, (C55_title x.title _ _).2 h1, (C55_title x.title _ _).2 h2]
  have hm' : Reachable sep m' := by
    simp only [headingLabel, createLabel, Prod.mk.injEq] at h
    have := hm.step (.add (headingId x docId count level t).1 (some ["heading".toList, level.name]) docId true
      (t.short.getD (x.condense t.text)))
    simp only [Manager.step, h.1.1] at this
    exact this
  exact (C55_duplicate x sep docId hs m' hm' count2 level t' id hid2 hid).1.2 ⟨l, by rw [c3]; simp, c1, c2⟩

/-- C55. The identifiers of headings without text are numbered: each one takes the next number of its document, so two of
them have different identifiers. -/
theorem C55_numbered (x : Ext) (docId : Str) (count count' : Nat) (t t' : Source)
    (ht : t.id = none ∧ t.short = none ∧ t.plain = true ∧ strip x.sp t.text = [])
    (ht' : t'.id = none ∧ t'.short = none ∧ t'.plain = true ∧ strip x.sp t'.text = []) :
    (generateLabelId x docId count t).2 = count + 1 ∧
    ((generateLabelId x docId count t).1 = (generateLabelId x docId count' t').1 → count = count') := by
  obtain ⟨h1, h2, h3, h4⟩ := ht
  obtain ⟨h1', h2', h3', h4'⟩ := ht'
  simp only [generateLabelId, h1, h2, h3, h4, h1', h2', h3', h4']
  refine ⟨rfl, ?_⟩
  simp only [decide_true, Bool.and_self, if_true, join]
  intro h
  have := List.append_cancel_left h
  have := congrArg (Nat.ofDigitChars 10 · 0) this
  simp only [Nat.ofDigitChars_ten_toDigits] at this
  omega

/-- Finding: the number of an empty heading may be the text of another one. With identifiers that need no change by
`slugify`, an empty chapter and the chapter `1` of the document `a` have the same identifier. -/
theorem C55_number_taken (x : Ext) (hx : x.slug "a".toList = "a".toList) (hx' : x.slug "a-1".toList = "a-1".toList)
    (hsp : x.sp '1' = false) :
    (generateLabelId x "a".toList 0 ⟨none, none, [], true⟩).1 = "a-1".toList ∧
    (generateLabelId x "a".toList 0 ⟨none, none, "1".toList, true⟩).1 = "a-1".toList := by
  constructor
  · simp only [generateLabelId, hx]
    rfl
  · have h1 : strip x.sp "1".toList = "1".toList := by
      simp [strip, rstrip, lstrip, hsp]
    have h2 : x.condense "1".toList = "1".toList := rfl
    simp only [generateLabelId, h1, h2]
    exact hx'

/-- C55. The captions of a figure: the first one gets the identifier of the figure, and every caption that gets none has its
own identifier or one made of its text. All labels are in the document of the figure, with the kind of a figure. -/
theorem C55_figure (x : Ext) (sep docId : Str) (hs : sep ≠ []) (m : Manager) (hm : Reachable sep m) (figId : Option Str)
    (ts : List Source) (m' : Manager) (ls : List (Label × Str))
    (h : figureLabels x sep docId m figId ts = (m', some ls)) (hid : ∀ p ∈ ls, ¬ sep <:+: p.2) :
    m'.values = m.values ++ ls.map Prod.fst ∧
    (∀ p ∈ ls, p.1.docId = docId ∧ p.1.id = p.2 ∧ p.1.kind = some ["caption".toList, "figure".toList]) ∧
    ls.map Prod.snd = captionIds x.hash figId ts ∧
    List.Forall₂ (fun t p => (∀ s, t.short = some s → p.1.title = s) ∧ (t.short = none → IsTitle t.text p.1.title)) ts ls := by
  induction ts generalizing m figId ls with
  | nil =>
    simp only [figureLabels, Prod.mk.injEq, Option.some.injEq] at h
    obtain ⟨rfl, rfl⟩ := h
    refine ⟨by simp, by simp, ?_, .nil⟩
    cases figId <;> rfl
  | cons t ts ih =>
    simp only [figureLabels] at h
    generalize hc : createLabel x sep docId m ["caption".toList, "figure".toList] (captionId x figId t) t = c at h
    obtain ⟨m1, l⟩ := c
    cases l with
    | none => simp at h
    | some l =>
      simp only at h
      generalize hf : figureLabels x sep docId m1 none ts = f at h
      obtain ⟨m2, ls'⟩ := f
      cases ls' with
      | none => simp at h
      | some ls' =>
        simp only [Prod.mk.injEq, Option.some.injEq] at h
        obtain ⟨rfl, rfl⟩ := h
        have hid0 := hid (l, captionId x figId t) (by simp)
        have hp : parseId sep (captionId x figId t) = (none, captionId x figId t) := by
          unfold parseId
          rw [split_of_not_infix sep _ hs hid0]
        obtain ⟨a1, a2⟩ := C10_add sep m hm (captionId x figId t) (some ["caption".toList, "figure".toList]) docId true
          (t.short.getD (x.condense t.text))
        simp only [hp, Option.getD_none] at a1 a2
        unfold createLabel at hc
        have hno : ¬ ∃ l ∈ m.values, l.docId = docId ∧ l.id = captionId x figId t := by
          intro hex
          have := (a1 hex).1
          rw [hc] at this
          cases this
        obtain ⟨l'', b1, b2, b3, b4, b5, b6⟩ := a2 hno
        rw [hc] at b1 b6
        simp only [Option.some.injEq] at b1
        subst b1
        have hm1 : Reachable sep m1 := by
          have := hm.step (.add (captionId x figId t) (some ["caption".toList, "figure".toList]) docId true
            (t.short.getD (x.condense t.text)))
          simp only [Manager.step, hc] at this
          exact this
        obtain ⟨i1, i2, i3, i4⟩ := ih m1 hm1 none ls' hf (fun p hp => hid p (by simp [hp]))
        refine ⟨by rw [i1, b6]; simp, ?_, ?_, .cons ⟨?_, ?_⟩ i4⟩
        · intro p hp
          rw [List.mem_cons] at hp
          rcases hp with rfl | hp
          · exact ⟨b2, b3, b4⟩
          · exact i2 p hp
        · rw [List.map_cons, i3]
          cases figId with
          | some i => rfl
          | none => cases hti : t.id <;> simp [captionId, captionIds, ownId, hti]
        · intro s hsh; rw [b5, hsh]; rfl
        · intro hsh
          rw [b5, hsh, Option.getD_none, ← C55_title x.title]
          rfl

/-- Finding: two figures without identifiers and with the same caption in a document are an error. -/
theorem C55_same_caption (x : Ext) (sep docId : Str) (hs : sep ≠ []) (m : Manager) (hm : Reachable sep m) (t t' : Source)
    (ht : t.id = none) (ht' : t'.id = none) (he : t.text = t'.text) (m' : Manager) (ls : List (Label × Str))
    (h : figureLabels x sep docId m none [t] = (m', some ls)) (hid : ¬ sep <:+: "caption-".toList ++ x.hash t.text) :
    (figureLabels x sep docId m' none [t']).2 = none := by
  have hc' : captionId x none t' = "caption-".toList ++ x.hash t.text := by simp [captionId, ht', he]
  have hc : captionId x none t = "caption-".toList ++ x.hash t.text := by simp [captionId, ht]
  simp only [figureLabels, hc, createLabel] at h
  generalize hg : m.addLabel sep ("caption-".toList ++ x.hash t.text) (some ["caption".toList, "figure".toList]) docId true
    (t.short.getD (x.condense t.text)) = g at h
  obtain ⟨m1, l⟩ := g
  cases l with
  | none => simp at h
  | some l =>
    simp only [Prod.mk.injEq] at h
    have hp : parseId sep ("caption-".toList ++ x.hash t.text) = (none, "caption-".toList ++ x.hash t.text) := by
      unfold parseId
      rw [split_of_not_infix sep _ hs hid]
    obtain ⟨a1, a2⟩ := C10_add sep m hm ("caption-".toList ++ x.hash t.text) (some ["caption".toList, "figure".toList]) docId true
      (t.short.getD (x.condense t.text))
    simp only [hp, Option.getD_none, hg] at a1 a2
    have hno : ¬ ∃ l ∈ m.values, l.docId = docId ∧ l.id = "caption-".toList ++ x.hash t.text := by
      intro hex
      have := (a1 hex).1
      cases this
    obtain ⟨l'', b1, b2, b3, b4, b5, b6⟩ := a2 hno
    have hm1 : Reachable sep m' := by
      have := hm.step (.add ("caption-".toList ++ x.hash t.text) (some ["caption".toList, "figure".toList]) docId true
        (t.short.getD (x.condense t.text)))
      simp only [Manager.step, hg] at this
      rw [← h.1]; exact this
    obtain ⟨c1, _⟩ := C10_add sep m' hm1 ("caption-".toList ++ x.hash t.text) (some ["caption".toList, "figure".toList]) docId true
      (t'.short.getD (x.condense t'.text))
    simp only [hp, Option.getD_none] at c1
    have := (c1 ⟨l'', by rw [← h.1, b6]; simp, b2, b3⟩).1
    simp only [figureLabels, hc', createLabel]
    generalize hg' : m'.addLabel sep ("caption-".toList ++ x.hash t.text) (some ["caption".toList, "figure".toList]) docId true
      (t'.short.getD (x.condense t'.text)) = g' at this
    obtain ⟨m2, l2⟩ := g'
    simp only at this
    subst this
    rfl

/-! ### Texts -/

/-- The classes of characters are those of Python as far as the formats of the settings need them, no attribute has an empty
name, and the substitution is given time for two rounds. -/
structure Usual (e : Env) : Prop where
  word : ∀ c ∈ "abcdefghijklmnopqrstuvwxyz_".toList, e.isWord c = true
  notWord : ∀ c ∈ "@{} .".toList, e.isWord c = false
  notSpace : ∀ c ∈ "FT}".toList, e.sp c = false
  more : ∀ o, e.more o [] = none
  rounds : 2 ≤ e.fuel

variable {e : Env} {m : Manager} {l : Label}

abbrev J (e : Env) (m : Manager) : Macros.Objs := objs m e.more e.repr
abbrev dicts (e : Env) (m : Manager) (l : Label) : List (Dict Str (J e m).O) := [[("@label".toList, .label l)]]

theorem noneOk : Macros.NoneOk (J e m) := ⟨rfl, fun _ => rfl⟩

theorem split_label (a : Str) (ha : '.' ∉ a) :
    split ['.'] ('@' :: ("label.".toList ++ a)) = ["@label".toList, a] ∧
    split ['.'] ('@' :: ("label.".toList ++ a ++ ['.'])) = ["@label".toList, a, []] := by
  constructor
  · rw [show '@' :: ("label.".toList ++ a) = "@label".toList ++ '.' :: a from rfl, split_char _ _ _ (by decide),
      split_char_none _ _ ha]
  · rw [show '@' :: ("label.".toList ++ a ++ ['.']) = "@label".toList ++ '.' :: (a ++ '.' :: []) by simp,
      split_char _ _ _ (by decide), split_char _ _ _ ha]
    rfl

theorem stands (he : Usual e) (a : Str) (ha : '.' ∉ a) (o : Obj) (ho : labelAttr m l a = some o) (hn : o ≠ .none)
    (hl : ∀ l', o ≠ .label l') :
    Macros.Stands (J e m) (dicts e m l) ("label.".toList ++ a) ((J e m).str o) ∧
    Macros.Stands (J e m) (dicts e m l) ("label.".toList ++ a ++ ['.']) ((J e m).str o ++ ['.']) := by
  have hattr : (J e m).attr (.label l) a = some o := by
    show (labelAttr m l a).or _ = some o
    rw [ho]; rfl
  have hi : (J e m).isNone o = false := by cases o <;> first | exact absurd rfl hn | rfl
  have hpath : Macros.Path (J e m) (.label l) [a] o :=
    Macros.Path.cons (J := J e m) (o := Obj.label l) (o1 := o) rfl hattr (Macros.Path.nil (J := J e m) o)
  have hd : ∃ ds d ds', dicts e m l = ds ++ d :: ds' ∧ (∀ d' ∈ ds, d'.get? "@label".toList = none) ∧
      d.get? "@label".toList = some (Obj.label l) := ⟨[], _, [], rfl, by simp, rfl⟩
  constructor
  · exact ⟨"@label".toList, [a], [], .label l, o, by rw [Macros.pieces_iff, (split_label a ha).1]; rfl, hd, hpath, hi, by simp, by simp⟩
  · refine ⟨"@label".toList, [a], [[]], .label l, o, by rw [Macros.pieces_iff, (split_label a ha).2]; rfl, hd, hpath, hi, ?_, by simp⟩
    intro b hb
    simp only [List.head?_cons, Option.mem_some_iff] at hb
    subst hb
    cases o with
    | none => rfl
    | label l' => exact absurd rfl (hl l')
    | text s => exact he.more _
    | num n => exact he.more _
    | other s => exact he.more _

/-- Parts with their macros replaced by values without `@`, or not defined. -/
inductive Filled (J : Macros.Objs) (dicts : List (Dict Str J.O)) : List Macros.Part → Str → Prop
  | nil : Filled J dicts [] []
  | text (t : Str) {ps r} (h : Filled J dicts ps r) : Filled J dicts (.text t :: ps) (t ++ r)
  | mac {name b ps v r} (hv : Macros.Stands J dicts name v) (ha : '@' ∉ v) (h : Filled J dicts ps r) :
    Filled J dicts (.mac name b :: ps) (v ++ r)
  | undef {name b ps r} (hu : Macros.Undefined J dicts name) (h : Filled J dicts ps r) :
    Filled J dicts (.mac name b :: ps) ((Macros.Part.mac name b).src ++ r)

theorem Filled.replaced {J : Macros.Objs} {dicts : List (Dict Str J.O)} {ps : List Macros.Part} {r : Str}
    (hN : Macros.NoneOk J) (h : Filled J dicts ps r) :
    Macros.Replaced J dicts ps r ∧
    ∀ name b v, Macros.Part.mac name b ∈ ps → Macros.Stands J dicts name v → '@' ∉ v := by
  induction h with
  | nil => exact ⟨.nil, by simp⟩
  | text t _ ih => exact ⟨.text ih.1, fun n b v h hv => ih.2 n b v (by simpa using h) hv⟩
  | mac hv ha _ ih =>
    refine ⟨.mac hv ih.1, fun n b v' h hv' => ?_⟩
    simp only [List.mem_cons, Macros.Part.mac.injEq] at h
    rcases h with ⟨rfl, _⟩ | h
    · have e1 := Macros.substitute_stands J dicts hN n _ [] hv
      have e2 := Macros.substitute_stands J dicts hN n _ [] hv'
      rw [← e2, e1]; exact ha
    · exact ih.2 n b v' h hv'
  | undef hu _ ih =>
    refine ⟨.undef hu ih.1, fun n b v' h hv' => ?_⟩
    simp only [List.mem_cons, Macros.Part.mac.injEq] at h
    rcases h with ⟨rfl, _⟩ | h
    · obtain ⟨first, as, rest, o, o', h1, ⟨ds, d, ds', rfl, h2, h3⟩, _⟩ := hv'
      have := hu first (as ++ rest) h1 d (by simp)
      rw [h3] at this
      cases this
    · exact ih.2 n b v' h hv'

theorem format_parts (he : Usual e) (env : Labels.Env) (sep : Str) (fmts : Dict Str Str) (id : Str) (keys : List Str)
    (target : Option Str) (hl : (m.getLabel env sep id).2 = some l) (keys' : List Str)
    (hk : (if keys ≠ [] then some keys else l.kind) = some keys') (ps : List Macros.Part)
    (hf : Utils.findEntry ['_'] (target.map fun t => if t.head? = some '.' then t.drop 1 else t) keys' [fmts] =
      some (Macros.src ps)) (hg : Macros.Good e.isWord e.sp ps) (r : Str)
    (hr : Filled (J e (m.register env)) (dicts e (m.register env) l) ps r) :
    formatString e m env sep (some fmts) id keys target = .ok r := by
  have hm : (m.getLabel env sep id).1 = m.register env := by
    simp only [Manager.getLabel]
    split <;> rfl
  have hch : Macros.Chars e.isWord e.sp :=
    ⟨he.notWord _ (by decide), he.notWord _ (by decide), he.notSpace _ (by decide)⟩
  obtain ⟨h1, h2⟩ := hr.replaced noneOk
  have := Macros.C25_replaced_partial (J e (m.register env)) e.isWord e.sp (dicts e (m.register env) l) hch noneOk ps h2 r hg h1
    e.fuel he.rounds
  have hgl : m.getLabel env sep id = (m.register env, some l) := Prod.ext hm hl
  unfold formatString
  rw [hgl]
  simp only [hk, Option.toList_some, hf]
  show (match Macros.replaceMacros (J e (m.register env)) e.isWord e.sp (dicts e (m.register env) l) e.fuel (Macros.src ps) with
    | none => _
    | some s => _) = _
  rw [this]

theorem deref_own {sep : Str} (h : Reachable sep m) (env : Labels.Env) {x : Label} (hx : x ∈ (m.register env).values) :
    (m.register env).deref (some x.uid) = some x := by
  simp only [Manager.deref, Option.bind_some]
  have huids : ((m.register env).values.map Label.uid).Nodup := by
    unfold Manager.values
    rw [List.map_map]; exact (h.inv.register env).uids
  cases hf : (m.register env).values.find? (fun l => l.uid = x.uid) with
  | none =>
    rw [List.find?_eq_none] at hf
    exact absurd (hf x hx) (by simp)
  | some y =>
    have hy := List.mem_of_find?_eq_some hf
    have huy := List.find?_some hf
    simp at huy
    have : x = y := List.inj_on_of_nodup_map huids hx hy huy.symm
    subst this
    exact hf

theorem last_number {sep : Str} (h : Reachable sep m) (env : Labels.Env) (hr : m.registered = false) (pre : List Label)
    (post : List Label) (hv : (m.register env).values = pre ++ l :: post) (a b : Str) (hk : l.kind = some [a, b]) :
    labelNumber l = some (number env.resets (kinds pre ++ [a, b]) b) := by
  obtain ⟨ns, h1, h2, h3⟩ := C13_numbers sep m h env hr pre l post hv _ hk
  have := h3 1 (by simp)
  simp only [List.length_cons, List.length_nil] at h2
  rw [labelNumber, h1, Option.bind_some, List.getLast?_eq_getElem?, h2]
  exact this

theorem own_number {sep : Str} (h : Reachable sep m) (env : Labels.Env) (hr : m.registered = false) (pre : List Label)
    (post : List Label) (hv : (m.register env).values = pre ++ l :: post) (hc : l.content = true) (r : Rank)
    (hk : l.kind = some ["heading".toList, Labels.Spec.name r]) :
    numberOf ((m.register env).deref (l.links r)) =
      .num (number env.resets (kinds pre ++ ["heading".toList, Labels.Spec.name r]) (Labels.Spec.name r)) ∧
    labelNumber l = some (number env.resets (kinds pre ++ ["heading".toList, Labels.Spec.name r]) (Labels.Spec.name r)) := by
  have hl : l.links r = some l.uid :=
    C14_enclosing sep m h env hr pre l post hv hc r l.uid
      ⟨pre, l, [], rfl, rfl, ⟨hc, ["heading".toList], hk⟩, by simp⟩
  have hn := last_number h env hr pre post hv _ _ hk
  refine ⟨?_, hn⟩
  rw [hl, deref_own h env (by rw [hv]; simp)]
  simp only [numberOf, hn]

theorem digits_no_at (n : Nat) : '@' ∉ Nat.toDigits 10 n := by
  intro h
  have := Nat.isDigit_of_mem_toDigits (by decide) (by decide) h
  revert this
  decide

theorem isWord_label (he : Usual e) (a : Str) (ha : ∀ c ∈ a, c ∈ "abcdefghijklmnopqrstuvwxyz_.".toList) :
    ∀ c ∈ "label.".toList ++ a, e.isWord c = true ∨ c = '.' := by
  intro c hc
  have : c ∈ "abcdefghijklmnopqrstuvwxyz_.".toList := by
    rw [List.mem_append] at hc
    rcases hc with hc | hc
    · revert c; decide
    · exact ha c hc
  rw [show "abcdefghijklmnopqrstuvwxyz_.".toList = "abcdefghijklmnopqrstuvwxyz_".toList ++ ['.'] from rfl,
    List.mem_append] at this
  rcases this with h | h
  · exact .inl (he.word c h)
  · exact .inr (by simpa using h)

/-- A format with a number and a title. -/
theorem format_title (he : Usual e) (env : Labels.Env) (sep : Str) (fmts : Dict Str Str) (id : Str) (keys : List Str)
    (target : Option Str) (hl : (m.getLabel env sep id).2 = some l) (keys' : List Str)
    (hk : (if keys ≠ [] then some keys else l.kind) = some keys') (p a : Str) (hp : '@' ∉ p)
    (ha : ∀ c ∈ a, c ∈ "abcdefghijklmnopqrstuvwxyz_".toList) (o : Obj) (ho : labelAttr (m.register env) l a = some o)
    (hn : o ≠ .none) (hol : ∀ l', o ≠ .label l') (ho' : '@' ∉ (J e (m.register env)).str o) (ht : '@' ∉ l.title)
    (hf : Utils.findEntry ['_'] (target.map fun t => if t.head? = some '.' then t.drop 1 else t) keys' [fmts] =
      some (p ++ ('@' :: ("label.".toList ++ a ++ ['.'])) ++ " ".toList ++ "@label.title".toList)) :
    formatString e m env sep (some fmts) id keys target = .ok (p ++ (J e (m.register env)).str o ++ ". ".toList ++ l.title) := by
  have hdot : '.' ∉ a := fun h => absurd (ha _ h) (by decide)
  have h1 := (stands (m := m.register env) he a hdot o ho hn hol).2
  have h2 := (stands (m := m.register env) he "title".toList (by decide) (.text l.title) rfl (by simp) (by simp)).1
  have hf' : Filled (J e (m.register env)) (dicts e (m.register env) l) _ _ :=
    .text p (.mac (b := none) h1 (by
      intro hm
      rw [List.mem_append] at hm
      rcases hm with hm | hm
      · exact ho' hm
      · exact absurd hm (by decide)) (.text " ".toList (.mac (b := none) h2 ht .nil)))
  have hs : p ++ (J e (m.register env)).str o ++ ". ".toList ++ l.title =
      p ++ (((J e (m.register env)).str o ++ ['.']) ++ (" ".toList ++ (l.title ++ []))) := by
    simp
  rw [hs]
  refine format_parts he env sep fmts id keys target hl keys' hk _ ?_ ?_ _ hf'
  · rw [hf]
    simp only [Macros.src, Macros.Part.src, List.flatMap_cons, List.flatMap_nil, List.append_nil, List.append_assoc]
    rfl
  · refine ⟨hp, by simp, ?_, .inr ⟨' ', [], _, rfl, he.notWord _ (by decide),
      by decide, .inl (by decide)⟩, by decide, by decide, isWord_label he "title".toList (by decide), .inl rfl, trivial⟩
    have := isWord_label he (a ++ ['.']) (by
      intro c hc
      rw [List.mem_append] at hc
      rw [show "abcdefghijklmnopqrstuvwxyz_.".toList = "abcdefghijklmnopqrstuvwxyz_".toList ++ ['.'] from rfl, List.mem_append]
      exact hc.imp_left (ha c))
    simpa using this

/-- A format with nothing but the title. -/
theorem format_only_title (he : Usual e) (env : Labels.Env) (sep : Str) (fmts : Dict Str Str) (id : Str) (keys : List Str)
    (target : Option Str) (hl : (m.getLabel env sep id).2 = some l) (keys' : List Str)
    (hk : (if keys ≠ [] then some keys else l.kind) = some keys') (ht : '@' ∉ l.title)
    (hf : Utils.findEntry ['_'] (target.map fun t => if t.head? = some '.' then t.drop 1 else t) keys' [fmts] =
      some "@label.title".toList) :
    formatString e m env sep (some fmts) id keys target = .ok l.title := by
  have h2 := (stands (m := m.register env) he "title".toList (by decide) (.text l.title) rfl (by simp) (by simp)).1
  have hf' : Filled (J e (m.register env)) (dicts e (m.register env) l) [.mac "label.title".toList none] (l.title ++ []) :=
    .mac (b := none) h2 ht .nil
  rw [← List.append_nil l.title]
  refine format_parts he env sep fmts id keys target hl keys' hk [.mac "label.title".toList none] (by rw [hf]; rfl) ?_ _ hf'
  exact ⟨by decide, isWord_label he "title".toList (by decide), .inl rfl, trivial⟩

/-- A format with a number in bold. -/
theorem format_bold (he : Usual e) (env : Labels.Env) (sep : Str) (fmts : Dict Str Str) (id : Str) (keys : List Str)
    (target : Option Str) (hl : (m.getLabel env sep id).2 = some l) (keys' : List Str)
    (hk : (if keys ≠ [] then some keys else l.kind) = some keys') (c : Char) (w post : Str) (hw : '@' ∉ c :: w) (hp : '@' ∉ post)
    (hc : c ∈ "FT".toList) (n : Nat) (hn : labelNumber l = some n)
    (hf : Utils.findEntry ['_'] (target.map fun t => if t.head? = some '.' then t.drop 1 else t) keys' [fmts] =
      some ("@b".toList ++ ('{' :: c :: w) ++ "@label.number".toList ++ ('}' :: post))) :
    formatString e m env sep (some fmts) id keys target =
      .ok ("@b{".toList ++ c :: w ++ Nat.toDigits 10 n ++ '}' :: post) := by
  have h1 := (stands (m := m.register env) he "number".toList (by decide) (.num n)
    (by show some (match labelNumber l with | some n => Obj.num n | none => .none) = _; rw [hn]) (by simp) (by simp)).1
  have hu : Macros.Undefined (J e (m.register env)) (dicts e (m.register env) l) "b".toList := by
    intro first rest h d hd
    rw [Macros.pieces_iff, show split ['.'] ('@' :: "b".toList) = ["@b".toList] by decide] at h
    simp only [List.cons.injEq] at h
    obtain ⟨rfl, _⟩ := h
    simp only [dicts, List.mem_singleton] at hd
    subst hd
    rfl
  have hf' : Filled (J e (m.register env)) (dicts e (m.register env) l) _ _ :=
    .undef (b := none) hu (.text ('{' :: c :: w) (.mac (b := none) h1 (digits_no_at n) (.text ('}' :: post) .nil)))
  have hs : "@b{".toList ++ c :: w ++ Nat.toDigits 10 n ++ '}' :: post =
      (Macros.Part.mac "b".toList none).src ++ ('{' :: c :: w ++ (Nat.toDigits 10 n ++ ('}' :: post ++ []))) := by
    simp [Macros.Part.src]
  rw [hs]
  have hcF : e.sp c = false ∧ c ≠ '}' := by
    constructor
    · exact he.notSpace c (by
        have : ∀ c ∈ "FT".toList, c ∈ "FT}".toList := by decide
        exact this c hc)
    · rintro rfl; exact absurd hc (by decide)
  refine format_parts he env sep fmts id keys target hl keys' hk _ ?_ ?_ _ hf'
  · rw [hf]
    simp only [Macros.src, Macros.Part.src, List.flatMap_cons, List.flatMap_nil, List.append_nil, List.append_assoc]
    rfl
  · refine ⟨by decide, fun c hc => .inl (he.word c (by revert c; decide)), .inr ⟨'{', c :: w, _, rfl, he.notWord _ (by decide), by decide,
      .inr ⟨[], c, w, rfl, by simp, hcF.1, hcF.2⟩⟩, ?_, by decide, isWord_label he "number".toList (by decide),
      .inr ⟨'}', post, [], rfl, he.notWord _ (by decide), by decide, .inl (by decide)⟩, ?_, trivial⟩
    · simpa using hw
    · simpa using hp

section
set_option maxRecDepth 20000

theorem fmt_title : ∀ t ∈ usualTargets, ∀ k ∈ [["document".toList], ["ref".toList, "document".toList],
      ["heading".toList, "title".toList], ["ref".toList, "heading".toList, "title".toList],
      ["ref".toList, "heading".toList, "section".toList], ["ref".toList, "heading".toList, "subsection".toList],
      ["ref".toList, "heading".toList, "subsubsection".toList]],
    Utils.findEntry ['_'] (t.map fun t => if t.head? = some '.' then t.drop 1 else t) k [labelFmts] =
      some "@label.title".toList := by decide

theorem fmt_chapter : ∀ t ∈ usualTargets, ∀ k ∈ [["heading".toList, "chapter".toList],
      ["ref".toList, "heading".toList, "chapter".toList]],
    Utils.findEntry ['_'] (t.map fun t => if t.head? = some '.' then t.drop 1 else t) k [labelFmts] =
      some "Chapter @label.chapter_number. @label.title".toList := by decide

theorem fmt_part : ∀ t ∈ usualTargets, ∀ k ∈ [["heading".toList, "part".toList], ["ref".toList, "heading".toList, "part".toList]],
    Utils.findEntry ['_'] (t.map fun t => if t.head? = some '.' then t.drop 1 else t) k [labelFmts] =
      some "Part @label.part_number. @label.title".toList := by decide

theorem fmt_section : ∀ t ∈ usualTargets, ∀ k ∈ [["heading".toList, "section".toList], ["heading".toList, "subsection".toList],
      ["heading".toList, "subsubsection".toList]],
    Utils.findEntry ['_'] (t.map fun t => if t.head? = some '.' then t.drop 1 else t) k [labelFmts] =
      some "@label.tree_number. @label.title".toList := by decide

theorem fmt_caption : ∀ t ∈ usualTargets, ∀ k ∈ [("figure".toList, "Fig.".toList), ("table".toList, "Table".toList)],
    Utils.findEntry ['_'] (t.map fun t => if t.head? = some '.' then t.drop 1 else t) ["caption".toList, k.1] [labelFmts] =
      some ("@b{".toList ++ k.2 ++ " @label.number}. ".toList) ∧
    Utils.findEntry ['_'] (t.map fun t => if t.head? = some '.' then t.drop 1 else t) ["ref".toList, "caption".toList, k.1]
      [labelFmts] = some ("@b{".toList ++ k.2 ++ " @label.number}".toList) := by decide
end

theorem ref_text (env : Labels.Env) (sep : Str) (fmts : Option (Dict Str Str)) (id target : Str) (kind : List Str)
    (hid : (m.getLabel env sep id).2 = some l) (hk : l.kind = some kind) :
    refText e m env sep fmts id target = formatString e m env sep fmts l.id ("ref".toList :: kind) (some target) := by
  simp only [refText, hid, hk]

/-- C55. A part or a chapter shows its number among the parts or chapters, and its title. -/
theorem C55_chapter (he : Usual e) (sep : Str) (m : Manager) (h : Reachable sep m) (env : Labels.Env) (hr : m.registered = false)
    (pre : List Label) (l : Label) (post : List Label) (hv : (m.register env).values = pre ++ l :: post)
    (hc : l.content = true) (r : Rank) (shown : Str)
    (hrs : (r = .part ∧ shown = "Part ".toList) ∨ (r = .chapter ∧ shown = "Chapter ".toList))
    (hk : l.kind = some ["heading".toList, Labels.Spec.name r]) (ht : '@' ∉ l.title) :
    let text := shown ++ Nat.toDigits 10 (number env.resets (kinds pre ++ ["heading".toList, Labels.Spec.name r]) (Labels.Spec.name r)) ++
        ". ".toList ++ l.title
    (∀ id target, (m.getLabel env sep id).2 = some l → target ∈ usualTargets →
      formatString e m env sep (some labelFmts) id [] target = .ok text) ∧
    (∀ id target, (m.getLabel env sep id).2 = some l → (m.getLabel env sep l.id).2 = some l → some target ∈ usualTargets →
      refText e m env sep (some labelFmts) id target = .ok text) := by
  have hn := (own_number h env hr pre post hv hc r hk).1
  rcases hrs with ⟨rfl, rfl⟩ | ⟨rfl, rfl⟩
  · have key : ∀ id keys target, (m.getLabel env sep id).2 = some l → target ∈ usualTargets → ∀ keys',
        (if keys ≠ [] then some keys else l.kind) = some keys' →
        keys' ∈ [["heading".toList, "part".toList], ["ref".toList, "heading".toList, "part".toList]] → _ :=
      fun id keys target hid htg keys' hk' hmem =>
        format_title (m := m) he env sep labelFmts id keys target hid keys' hk' "Part ".toList "part_number".toList (by decide)
          (by decide) (.num (number env.resets (kinds pre ++ ["heading".toList, Labels.Spec.name .part]) (Labels.Spec.name .part)))
          (by show (if l.content = true then _ else _) = _; rw [if_pos hc]; exact congrArg some hn) (by simp) (by simp)
          (digits_no_at _) ht (fmt_part target htg keys' hmem)
    refine ⟨fun id target hid htg => key id [] target hid htg _ (by simpa using hk) (by decide), fun id target hid hid' htg => ?_⟩
    rw [ref_text env sep _ id target _ hid hk]
    exact key l.id _ _ hid' htg _ (if_pos (by simp)) (by decide)
  · have key : ∀ id keys target, (m.getLabel env sep id).2 = some l → target ∈ usualTargets → ∀ keys',
        (if keys ≠ [] then some keys else l.kind) = some keys' →
        keys' ∈ [["heading".toList, "chapter".toList], ["ref".toList, "heading".toList, "chapter".toList]] → _ :=
      fun id keys target hid htg keys' hk' hmem =>
        format_title (m := m) he env sep labelFmts id keys target hid keys' hk' "Chapter ".toList "chapter_number".toList
          (by decide) (by decide)
          (.num (number env.resets (kinds pre ++ ["heading".toList, Labels.Spec.name .chapter]) (Labels.Spec.name .chapter)))
          (by show (if l.content = true then _ else _) = _; rw [if_pos hc]; exact congrArg some hn) (by simp) (by simp)
          (digits_no_at _) ht (fmt_chapter target htg keys' hmem)
    refine ⟨fun id target hid htg => key id [] target hid htg _ (by simpa using hk) (by decide), fun id target hid hid' htg => ?_⟩
    rw [ref_text env sep _ id target _ hid hk]
    exact key l.id _ _ hid' htg _ (if_pos (by simp)) (by decide)

/-- C55. A section, a subsection or a subsubsection shows the numbers of the part, the chapter and so on that it is in, with periods
in between, and its title. -/
theorem C55_section (he : Usual e) (sep : Str) (m : Manager) (h : Reachable sep m) (env : Labels.Env) (l : Label)
    (hc : l.content = true) (r : Rank) (hr : r = .section ∨ r = .subsection ∨ r = .subsubsection)
    (hk : l.kind = some ["heading".toList, Labels.Spec.name r]) (ht : '@' ∉ l.title) (n : Rank → Option Nat)
    (hn : ∀ r, (∀ u, l.links r = some u → ∃ h ∈ (m.register env).values, h.uid = u ∧ labelNumber h = n r) ∧
      (l.links r = none → n r = none))
    (id : Str) (target : Option Str) (hid : (m.getLabel env sep id).2 = some l) (htg : target ∈ usualTargets) :
    formatString e m env sep (some labelFmts) id [] target =
      .ok (['.'].intercalate
        ((([n .part, n .chapter, n .section, n .subsection, n .subsubsection].filterMap (fun x => x)).filter (· ≠ 0)).map (Nat.toDigits 10)) ++
        ". ".toList ++ l.title) := by
  have htree := C14_tree_number sep m h env l n hn
  have hfmt := fmt_section target htg ["heading".toList, Labels.Spec.name r] (by rcases hr with rfl | rfl | rfl <;> decide)
  have hjoin : '@' ∉ join ['.'] (((m.register env).treeNumber l).map (Nat.toDigits 10)) := by
    generalize (m.register env).treeNumber l = ns
    induction ns with
    | nil => simp [join]
    | cons k ns ih =>
      cases ns with
      | nil => simpa [join] using digits_no_at k
      | cons k' ns =>
        rw [List.map_cons, join_cons _ _ _ (by simp)]
        intro hm
        rw [List.mem_append, List.mem_append] at hm
        rcases hm with (hm | hm) | hm
        · exact digits_no_at k hm
        · exact absurd hm (by decide)
        · exact ih hm
  have := format_title (m := m) he env sep labelFmts id [] target hid _ (by simpa using hk) [] "tree_number".toList (by decide)
    (by decide) (.text (join ['.'] (((m.register env).treeNumber l).map (Nat.toDigits 10))))
    (by show (if l.content = true then _ else _) = _; rw [if_pos hc]) (by simp) (by simp)
    hjoin ht hfmt
  rw [this, ← join_eq_intercalate]
  congr 1
  show [] ++ join ['.'] _ ++ _ ++ _ = _
  rw [htree]
  rfl

/-- C55. A title, and a reference to a document, a title or a section, shows the title of the label. -/
theorem C55_title_text (he : Usual e) (sep : Str) (m : Manager) (env : Labels.Env) (l : Label) (ht : '@' ∉ l.title) :
    (∀ id target, (m.getLabel env sep id).2 = some l → target ∈ usualTargets →
      l.kind = some ["document".toList] ∨ l.kind = some ["heading".toList, "title".toList] →
      formatString e m env sep (some labelFmts) id [] target = .ok l.title) ∧
    (∀ id target, (m.getLabel env sep id).2 = some l → (m.getLabel env sep l.id).2 = some l → some target ∈ usualTargets →
      (l.kind = some ["document".toList] ∨ l.kind = some ["heading".toList, "title".toList] ∨
        l.kind = some ["heading".toList, "section".toList] ∨ l.kind = some ["heading".toList, "subsection".toList] ∨
        l.kind = some ["heading".toList, "subsubsection".toList]) →
      refText e m env sep (some labelFmts) id target = .ok l.title) := by
  constructor
  · rintro id target hid htg (hk | hk)
    · exact format_only_title he env sep labelFmts id [] target hid _ (by simpa using hk) ht (fmt_title target htg _ (by decide))
    · exact format_only_title he env sep labelFmts id [] target hid _ (by simpa using hk) ht (fmt_title target htg _ (by decide))
  · intro id target hid hid' htg hk
    have key : ∀ k, l.kind = some k → ("ref".toList :: k) ∈ [["document".toList], ["ref".toList, "document".toList],
        ["heading".toList, "title".toList], ["ref".toList, "heading".toList, "title".toList],
        ["ref".toList, "heading".toList, "section".toList], ["ref".toList, "heading".toList, "subsection".toList],
        ["ref".toList, "heading".toList, "subsubsection".toList]] →
        refText e m env sep (some labelFmts) id target = .ok l.title := by
      intro k hk hmem
      rw [ref_text env sep _ id target _ hid hk]
      exact format_only_title he env sep labelFmts l.id _ _ hid' _ (if_pos (by simp)) ht (fmt_title _ htg _ hmem)
    rcases hk with hk | hk | hk | hk | hk <;> exact key _ hk (by decide)

/-- C55. The caption of a figure or a table starts with its number among the figures or tables in bold, and a reference to it
shows the same number. -/
theorem C55_caption (he : Usual e) (sep : Str) (m : Manager) (h : Reachable sep m) (env : Labels.Env) (hr : m.registered = false)
    (pre : List Label) (l : Label) (post : List Label) (hv : (m.register env).values = pre ++ l :: post)
    (kind shown : Str)
    (hks : (kind = "figure".toList ∧ shown = "Fig. ".toList) ∨ (kind = "table".toList ∧ shown = "Table ".toList))
    (hk : l.kind = some ["caption".toList, kind]) :
    let text := "@b{".toList ++ shown ++ Nat.toDigits 10 (number env.resets (kinds pre ++ ["caption".toList, kind]) kind) ++ "}".toList
    (∀ id target, (m.getLabel env sep id).2 = some l → target ∈ usualTargets →
      formatString e m env sep (some labelFmts) id [] target = .ok (text ++ ". ".toList)) ∧
    (∀ id target, (m.getLabel env sep id).2 = some l → (m.getLabel env sep l.id).2 = some l → some target ∈ usualTargets →
      refText e m env sep (some labelFmts) id target = .ok text) := by
  have hn := last_number h env hr pre post hv _ _ hk
  generalize number env.resets (kinds pre ++ ["caption".toList, kind]) kind = n at hn
  intro text
  have hfmt : ∀ t ∈ usualTargets, _ := fun t ht => fmt_caption t ht (kind, shown.dropLast) (by
    rcases hks with ⟨rfl, rfl⟩ | ⟨rfl, rfl⟩ <;> decide)
  constructor
  · intro id target hid htg
    rcases hks with ⟨rfl, rfl⟩ | ⟨rfl, rfl⟩
    · rw [format_bold he env sep labelFmts id [] target hid _ (by simpa using hk) 'F' "ig. ".toList ". ".toList (by decide)
        (by decide) (by decide) n hn (hfmt target htg).1]
      simp [text]
    · rw [format_bold he env sep labelFmts id [] target hid _ (by simpa using hk) 'T' "able ".toList ". ".toList (by decide)
        (by decide) (by decide) n hn (hfmt target htg).1]
      simp [text]
  · intro id target hid hid' htg
    rw [ref_text env sep _ id target _ hid hk]
    rcases hks with ⟨rfl, rfl⟩ | ⟨rfl, rfl⟩
    · rw [format_bold he env sep labelFmts l.id _ _ hid' _ (if_pos (by simp)) 'F' "ig. ".toList [] (by decide)
        (by decide) (by decide) n hn (hfmt _ htg).2]
      simp [text]
    · rw [format_bold he env sep labelFmts l.id _ _ hid' _ (if_pos (by simp)) 'T' "able ".toList [] (by decide)
        (by decide) (by decide) n hn (hfmt _ htg).2]
      simp [text]

/-- C55. A text of a label that is not there is an error. -/
theorem C55_no_label (sep : Str) (m : Manager) (env : Labels.Env) (fmts : Option (Dict Str Str)) (id : Str)
    (hid : (m.getLabel env sep id).2 = none) :
    (∀ keys target, formatString e m env sep fmts id keys target = .error .labelNotFound) ∧
    ∀ target, refText e m env sep fmts id target = .error .labelNotFound := by
  refine ⟨fun keys target => ?_, fun target => ?_⟩
  · unfold formatString
    have hgl : m.getLabel env sep id = ((m.getLabel env sep id).1, none) := Prod.ext rfl hid
    rw [hgl]
  · simp only [refText, hid]

theorem digits_only (k : Nat) : ∀ c ∈ Nat.toDigits 10 k, c.isDigit = true := fun _ h =>
  Nat.isDigit_of_mem_toDigits (by decide) (by decide) h

theorem filter_counter (level : Level) (x : Str) (hx : ∀ c ∈ x, c.isDigit = true) :
    Attrs.filter Attrs.trackedTargets [(level.name, .pos .string), (x, .pos .int)] (some [.pos .string, .pos .int])
      (some Formats.texTarget) (sortByAttrs := true) = [(level.name, .pos .string), (x, .pos .int)] := by
  have hne : level.name ≠ x := by
    rintro rfl
    revert hx
    cases level <;> decide
  have hend : ∀ t : Str, Attrs.endsWith x ('.' :: t) = false := by
    intro t
    cases h : Attrs.endsWith x ('.' :: t) with
    | false => rfl
    | true =>
      rw [Attrs.endsWith, List.isSuffixOf_iff_suffix] at h
      have := hx '.' (h.subset (by simp))
      revert this
      decide
  have hx1 : ∀ ts, Attrs.stripAttr ts x = x := by
    intro ts
    induction ts with
    | nil => rfl
    | cons t ts ih => simp [Attrs.stripAttr, hend, ih]
  have hl1 : Attrs.stripAttr Attrs.trackedTargets level.name = level.name := by cases level <;> decide
  have hitem : Attrs.findItem Attrs.trackedTargets [(level.name, .pos .string), (x, .pos .int)] (.pos .int)
      (some "tex".toList) = some (x, .pos .int) := by
    cases hb : Attrs.endsWith x "tex".toList with
    | true =>
      show (match List.filter (fun kv : Str × Attrs.AVal => Attrs.endsWith kv.1 "tex".toList) [(x, .pos .int)] with
        | kv :: _ => _
        | [] => _) = _
      rw [List.filter_cons_of_pos (p := fun kv : Str × Attrs.AVal => Attrs.endsWith kv.1 "tex".toList) hb]
    | false =>
      show (match List.filter (fun kv : Str × Attrs.AVal => Attrs.endsWith kv.1 "tex".toList) [(x, .pos .int)] with
        | kv :: _ => _
        | [] => _) = _
      rw [List.filter_cons_of_neg (by rw [hb]; simp)]
      rfl
  have hitem0 : Attrs.findItem Attrs.trackedTargets [(level.name, .pos .string), (x, .pos .int)] (.pos .string)
      (some "tex".toList) = some (level.name, .pos .string) := by
    cases level <;> rfl
  have hs : Attrs.strip Attrs.trackedTargets [(level.name, .pos .string), (x, .pos .int)] =
      [(level.name, .pos .string), (x, .pos .int)] := by
    simp [Attrs.strip, Dict.keys, Attrs.isTargetSpecific, hl1, hx1, Dict.set, hne]
  have hrem : Attrs.removeAttrs Attrs.trackedTargets [.pos .string, .pos .int] (some "tex".toList) = [] := rfl
  have hu : Lists.uniq id [Attrs.Query.pos .string, .pos .int] = [.pos .string, .pos .int] := by decide
  have ht : Attrs.stripDots Formats.texTarget = "tex".toList := by decide
  simp only [Attrs.filter, Option.getD_some, hu, Option.map_some, ht, if_true, hrem]
  simp only [List.not_mem_nil, not_false_iff, decide_true, List.filter_true, List.filterMap_cons, hitem0, hitem, List.filterMap_nil]
  have hup : Dict.update ([] : Attrs.ADict) [(level.name, .pos .string), (x, .pos .int)] =
      [(level.name, .pos .string), (x, .pos .int)] := by
    simp [Dict.update, Dict.set, hne]
  rw [hup, hs]

theorem setcounter (level : Level) (k : Nat) :
    Formats.texCmd Attrs.trackedTargets (Formats.posTable Formats.texCmdArguments) (Formats.nameTable Formats.texCmdOptionals)
      "setcounter".toList [(level.name, .pos .string), (Nat.toDigits 10 k, .pos .int)] none =
      .ok ("\\setcounter{".toList ++ level.name ++ "}{".toList ++ Nat.toDigits 10 k ++ "}".toList) := by
  have hf := filter_counter level _ (digits_only k)
  generalize Nat.toDigits 10 k = x at hf
  have hreq : Formats.requiredStr Attrs.trackedTargets (Formats.posTable Formats.texCmdArguments) "setcounter".toList
      [(level.name, .pos .string), (x, .pos .int)] = .ok ('{' :: level.name ++ "}{".toList ++ x ++ "}".toList) := by
    unfold Formats.requiredStr
    rw [show (Formats.posTable Formats.texCmdArguments).get? "setcounter".toList = some [.pos .string, .pos .int] from rfl]
    dsimp only
    rw [hf]
    simp [Attrs.texArguments]
  unfold Formats.texCmd
  rw [if_neg (by decide), hreq]
  have ho : ∀ d, Formats.optionalStr Attrs.trackedTargets (Formats.nameTable Formats.texCmdOptionals) "setcounter".toList d
    false = [] := fun d => rfl
  simp only [ho]
  simp

theorem heading_cmd (level : Level) (text : Str) :
    Formats.texCmd Attrs.trackedTargets (Formats.posTable Formats.texCmdArguments) (Formats.nameTable Formats.texCmdOptionals)
      level.name [] (some text) = .ok ('\\' :: level.name ++ '{' :: text ++ "}".toList) := by
  cases level <;> rfl

theorem label_cmd (text : Str) :
    Formats.texCmd Attrs.trackedTargets (Formats.posTable Formats.texCmdArguments) (Formats.nameTable Formats.texCmdOptionals)
      "label".toList [] (some text) = .ok ("\\label{".toList ++ text ++ "}".toList) := rfl

/-- C55. In LaTeX, a numbered heading sets the counter of its level to one less than its number, so that LaTeX counts to the number
that the references show, and has a label with its identifier. -/
theorem C55_heading_tex (hc : Typography.Classes e.sp e.isWord) (sep : Str) (m : Manager) (env : Labels.Env) (level : Level)
    (text id : Str) (l : Label) (hid : (m.getLabel env sep id).2 = some l) (n : Nat) (hn : labelNumber l = some (n + 1))
    (h1 : ∀ c ∈ id, c ∉ "–—'\"".toList) (h2 : ¬ "--".toList <:+: id) :
    headingTex e m env sep level [] text id =
      .ok ("\\setcounter{".toList ++ level.name ++ "}{".toList ++ Nat.toDigits 10 n ++ "}\n\\".toList ++ level.name ++
        "{".toList ++ text ++ "} \\label{".toList ++ id ++ "}".toList) := by
  rw [labelNumber] at hn
  simp only [headingTex, heading_cmd, hid, hn, if_neg (Nat.succ_ne_zero n), Nat.add_sub_cancel, setcounter, label_cmd,
    Typography.C45_hyphens_kept hc id h1 h2]
  simp

/-- C55. A heading without the label it needs is an error, and so is one whose label has no number. -/
theorem C55_heading_tex_error (sep : Str) (m : Manager) (env : Labels.Env) (level : Level) (text id : Str) :
    ((m.getLabel env sep id).2 = none → headingTex e m env sep level [] text id = .error .labelNotFound) ∧
    (∀ l, (m.getLabel env sep id).2 = some l → l.order = none → headingTex e m env sep level [] text id = .error .type) := by
  constructor
  · intro hid
    simp only [headingTex, heading_cmd, hid]
  · intro l hid ho
    simp only [headingTex, heading_cmd, hid, ho, Option.bind_none]

/-! A case for the theorems. -/

def sampleEnv : Env where
  isWord c := c.isAlphanum || c = '_'
  sp c := c = ' ' || c = '\n'
  more _ _ := none
  repr l := l.id
  fuel := 2

def sampleManager : Manager := Manager.init.run Labels.sep
  [.add "p".toList (some ["heading".toList, "part".toList]) "a".toList true "Basics".toList,
   .add "c".toList (some ["heading".toList, "chapter".toList]) "a".toList true "Waves".toList,
   .add "c2".toList (some ["heading".toList, "chapter".toList]) "a".toList true "Light".toList,
   .add "s".toList (some ["heading".toList, "section".toList]) "a".toList true "Red and blue".toList,
   .add "f".toList (some ["caption".toList, "figure".toList]) "a".toList true "A lens".toList]

def sampleDocs : Labels.Env := ⟨["a".toList], Labels.defaultResets⟩

example : Usual sampleEnv := ⟨by decide, by decide, by decide, fun _ => rfl, by decide⟩
example : Typography.Classes sampleEnv.sp sampleEnv.isWord := ⟨by
  intro c h
  simp only [sampleEnv, Bool.or_eq_true, decide_eq_true_eq] at h
  rcases h with rfl | rfl <;> decide, by decide⟩

/-- The texts of the headings and of the caption, and of a reference. -/
example :
    (["p", "c", "c2", "s", "f"].map fun i =>
      (formatString sampleEnv sampleManager sampleDocs Labels.sep (some labelFmts) i.toList [] (some ".html".toList)).toOption.map
        String.ofList) =
    [some "Part 1. Basics", some "Chapter 1. Waves", some "Chapter 2. Light", some "1.2.1. Red and blue", some "@b{Fig. 1}. "] ∧
    (refText sampleEnv sampleManager sampleDocs Labels.sep (some labelFmts) "a::s".toList ".tex".toList).toOption.map String.ofList =
      some "Red and blue" := by decide

example : (headingTex sampleEnv sampleManager sampleDocs Labels.sep .chapter [] "Light".toList "c2".toList).toOption.map String.ofList =
    some "\\setcounter{chapter}{1}\n\\chapter{Light} \\label{c2}" := by decide

/-- Finding: headings of two documents with the same `id` attribute. The label of the second one is looked up by its identifier
alone, so that the second heading shows the title of the first one. -/
theorem C55_other_heading :
    let m := Manager.init.run Labels.sep
      [.add "intro".toList (some ["heading".toList, "chapter".toList]) "a".toList true "First".toList,
       .add "intro".toList (some ["heading".toList, "chapter".toList]) "b".toList true "Second".toList]
    let docs : Labels.Env := ⟨["a".toList, "b".toList], Labels.defaultResets⟩
    (m.getLabel docs Labels.sep "b::intro".toList).2.map (fun l => String.ofList l.title) = some "Second" ∧
    (refText sampleEnv m docs Labels.sep (some labelFmts) "b::intro".toList ".html".toList).toOption.map String.ofList =
      some "Chapter 1. First" := by decide

/-- Finding: two hyphens in the identifier of a heading become a dash in its LaTeX label. -/
theorem C55_label_dash :
    let m := Manager.init.run Labels.sep
      [.add "a--b".toList (some ["heading".toList, "chapter".toList]) "a".toList true "First".toList]
    (headingTex sampleEnv m sampleDocs Labels.sep .chapter [] "First".toList "a--b".toList).toOption.map String.ofList =
      some "\\setcounter{chapter}{0}\n\\chapter{First} \\label{a–b}" := by decide

/-- Finding: a caption without number shows the name of the macro. -/
theorem C55_caption_not_numbered :
    let m : Manager := { Manager.init.run Labels.sep
      [.add "f".toList (some ["caption".toList, "figure".toList]) "a".toList true "A lens".toList] with registered := true }
    (formatString sampleEnv m sampleDocs Labels.sep (some labelFmts) "f".toList [] none).toOption.map String.ofList =
      some "@b{Fig. @label.number}. " := by decide

end Verif.LabelText
