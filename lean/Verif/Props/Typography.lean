import Verif.Lemmas.Typography

/-!
# C45: typography
-/

namespace Verif.Typography

open Verif

variable {sp word : Char → Bool}

/-- C45: after the dashes, each quote is replaced according to the characters beside it, and all other characters
stay. -/
theorem C45_quotes (hc : Classes sp word) (s : Str) : typo sp word s = curlAll sp word none (en sp (em sp s)) := by
  unfold typo
  exact quotes_eq word hc _

/-- C45: the characters other than spaces, dashes and quotes are kept, in their order. -/
theorem C45_only (hc : Classes sp word) (s : Str) :
    (typo sp word s).filter (fun c => !touched sp c) = s.filter (fun c => !touched sp c) := by
  rw [C45_quotes hc, curlAll_filter]
  unfold en em
  exact (dashSub_filter (dash_en word hc) (by decide) _).trans (dashSub_filter (dash_em word hc) (by decide) s)

/-- C45: a second pass changes nothing. -/
theorem C45_stable (hc : Classes sp word) (s : Str) : typo sp word (typo sp word s) = typo sp word s := by
  have hset : Neighbours (Set sp) (typo sp word s) := by
    rw [C45_quotes hc]
    exact curlAll_set word hc none _ (set_dashes word hc s)
  have h1 : em sp (typo sp word s) = typo sp word s := dashSub_id (dash_em word hc) (by decide) _ hset
  have h2 : en sp (typo sp word s) = typo sp word s := dashSub_id (dash_en word hc) (by decide) _ hset
  rw [C45_quotes hc (typo sp word s), h1, h2]
  rw [C45_quotes hc, curlAll_idem word hc]

/-- C45: dashes are set in the result, with no space beside them and no two hyphens left. -/
theorem C45_set (hc : Classes sp word) (s : Str) : Neighbours (Set sp) (typo sp word s) := by
  rw [C45_quotes hc]
  exact curlAll_set word hc none _ (set_dashes word hc s)

/-- C45: a text in which the dashes are set keeps its dashes and spaces. -/
theorem C45_set_unchanged (hc : Classes sp word) (s : Str) (h : Neighbours (Set sp) s) :
    typo sp word s = curlAll sp word none s := by
  rw [C45_quotes hc]
  have h1 : em sp s = s := dashSub_id (dash_em word hc) (by decide) _ h
  have h2 : en sp s = s := dashSub_id (dash_en word hc) (by decide) _ h
  rw [h1, h2]

/-- C45: a text without hyphens, dashes and straight quotes is not changed. -/
theorem C45_unchanged (hc : Classes sp word) (s : Str) (h : ∀ c ∈ s, c ∉ "-–—'\"".toList) : typo sp word s = s := by
  have hset : Neighbours (Set sp) s := by
    induction s with
    | nil => trivial
    | cons c s ih =>
      rw [neighbours_cons]
      refine ⟨?_, ih (fun d hd => h d (by simp [hd]))⟩
      intro d hd
      have hc1 := h c (by simp)
      have hd1 := h d (by
        cases s with
        | nil => simp at hd
        | cons e s => simp only [List.head?_cons, Option.some.injEq] at hd; simp [hd])
      refine ⟨?_, ?_, ?_⟩
      · rintro ⟨rfl, _⟩; exact hc1 (by decide)
      · rintro ⟨_, e⟩
        unfold isDash at e
        simp only [Bool.or_eq_true, decide_eq_true_eq] at e
        rcases e with rfl | rfl <;> exact hd1 (by decide)
      · rintro ⟨e, _⟩
        unfold isDash at e
        simp only [Bool.or_eq_true, decide_eq_true_eq] at e
        rcases e with rfl | rfl <;> exact hc1 (by decide)
  rw [C45_set_unchanged hc s hset]
  generalize (none : Option Char) = p
  clear hset
  induction s generalizing p with
  | nil => rfl
  | cons c s ih =>
    simp only [curlAll]
    rw [ih (fun d hd => h d (by simp [hd]))]
    have hc1 := h c (by simp)
    have e1 : c ≠ '\'' := by rintro rfl; exact hc1 (by decide)
    have e2 : c ≠ '"' := by rintro rfl; exact hc1 (by decide)
    simp [curl, e1, e2]

/-- C45: hyphens between words are kept: a text without dashes and straight quotes, in which no two hyphens are next to each
other, is not changed. -/
theorem C45_hyphens_kept (hc : Classes sp word) (s : Str) (h : ∀ c ∈ s, c ∉ "–—'\"".toList) (h2 : ¬ "--".toList <:+: s) :
    typo sp word s = s := by
  have hset : Neighbours (Set sp) s := by
    induction s with
    | nil => trivial
    | cons c s ih =>
      rw [neighbours_cons]
      refine ⟨?_, ih (fun d hd => h d (by simp [hd])) fun hi => h2 (hi.trans ⟨[c], [], by simp⟩)⟩
      intro d hd
      have hc1 := h c (by simp)
      cases s with
      | nil => simp at hd
      | cons e s =>
        simp only [List.head?_cons, Option.some.injEq] at hd
        subst hd
        have hd1 := h e (by simp)
        refine ⟨?_, ?_, ?_⟩
        · rintro ⟨rfl, rfl⟩
          exact h2 ⟨[], s, rfl⟩
        · rintro ⟨_, e⟩
          unfold isDash at e
          simp only [Bool.or_eq_true, decide_eq_true_eq] at e
          rcases e with rfl | rfl <;> exact hd1 (by decide)
        · rintro ⟨e, _⟩
          unfold isDash at e
          simp only [Bool.or_eq_true, decide_eq_true_eq] at e
          rcases e with rfl | rfl <;> exact hc1 (by decide)
  rw [C45_set_unchanged hc s hset]
  generalize (none : Option Char) = p
  clear hset h2
  induction s generalizing p with
  | nil => rfl
  | cons c s ih =>
    simp only [curlAll]
    rw [ih (fun d hd => h d (by simp [hd]))]
    have hc1 := h c (by simp)
    have e1 : c ≠ '\'' := by rintro rfl; exact hc1 (by decide)
    have e2 : c ≠ '"' := by rintro rfl; exact hc1 (by decide)
    simp [curl, e1, e2]

/-! ## Dashes -/

/-- C45: the dashes on either side of a character that is neither a space nor a dash are set independently, and
the character stays. -/
theorem C45_split (hc : Classes sp word) (x y : Str) (c : Char) (hp : Plain sp c) :
    en sp (em sp (x ++ c :: y)) = en sp (em sp x) ++ c :: en sp (em sp y) := by
  obtain ⟨h1, h2, h3, h4⟩ := hp
  unfold em en
  rw [show ("—".toList : Str) = ['—'] from rfl, show ("–".toList : Str) = ['–'] from rfl]
  rw [dashSub_split (dash_em word hc) c h1 h2 h4, dashSub_split (dash_en word hc) c h1 h2 h3]

/-- C45: three hyphens or a dash, with the spaces around them, become one dash. -/
theorem C45_emdash (hc : Classes sp word) (ws d ws' : Str) (hws : ∀ c ∈ ws, sp c = true) (hd : d = "---".toList ∨ d = "—".toList)
    (hws' : ∀ c ∈ ws', sp c = true) : en sp (em sp (ws ++ d ++ ws')) = "—".toList := by
  have h1 : em sp (ws ++ d ++ ws') = ['—'] := dashSub_block (dash_em word hc) ws d ws' hws hd hws'
  rw [h1]
  refine dashSub_absent (dash_en word hc) _ ?_ (by decide)
  intro x y h
  have := congrArg List.length h
  simp at this
  omega

/-- C45: two hyphens or a short dash, with the spaces around them, become one short dash. -/
theorem C45_endash (hc : Classes sp word) (ws d ws' : Str) (hws : ∀ c ∈ ws, sp c = true) (hd : d = "--".toList ∨ d = "–".toList)
    (hws' : ∀ c ∈ ws', sp c = true) : en sp (em sp (ws ++ d ++ ws')) = "–".toList := by
  have hcount : ∀ w : Str, (∀ c ∈ w, sp c = true) → w.count '-' = 0 := by
    intro w hw
    rw [List.count_eq_zero]
    intro h
    have := hw _ h
    rw [(hc.special '-' (by decide)).1] at this
    cases this
  have hno : ∀ w : Str, (∀ c ∈ w, sp c = true) → '—' ∉ w := by
    intro w hw h
    have := hw _ h
    rw [(hc.special '—' (by decide)).1] at this
    cases this
  have h1 : em sp (ws ++ d ++ ws') = ws ++ d ++ ws' := by
    refine dashSub_absent (dash_em word hc) _ ?_ ?_
    · intro x y h
      have := congrArg (List.count '-') h
      simp only [List.count_append, hcount ws hws, hcount ws' hws'] at this
      rcases hd with rfl | rfl
      · have e1 : List.count '-' "--".toList = 2 := by decide
        have e2 : List.count '-' "---".toList = 3 := by decide
        omega
      · have e1 : List.count '-' "–".toList = 0 := by decide
        have e2 : List.count '-' "---".toList = 3 := by decide
        omega
    · intro h
      simp only [List.mem_append] at h
      rcases h with (h | h) | h
      · exact hno ws hws h
      · rcases hd with rfl | rfl <;> revert h <;> decide
      · exact hno ws' hws' h
  rw [h1]
  exact dashSub_block (dash_en word hc) ws d ws' hws hd hws'

/-- C45: in a text: the dash and the spaces around it are replaced, and what is before and after them is set as if it
stood alone. -/
theorem C45_dash_in_text (hc : Classes sp word) (x y ws ws' : Str) (c d : Char) (h1 : Plain sp c) (h2 : Plain sp d)
    (hws : ∀ c ∈ ws, sp c = true) (hws' : ∀ c ∈ ws', sp c = true) :
    en sp (em sp (x ++ c :: (ws ++ "---".toList ++ ws' ++ d :: y))) = en sp (em sp x) ++ c :: '—' :: d :: en sp (em sp y) ∧
    en sp (em sp (x ++ c :: (ws ++ "--".toList ++ ws' ++ d :: y))) = en sp (em sp x) ++ c :: '–' :: d :: en sp (em sp y) := by
  constructor
  · rw [C45_split hc x _ c h1, C45_split hc _ y d h2, C45_emdash hc ws _ ws' hws (Or.inl rfl) hws']
    rfl
  · rw [C45_split hc x _ c h1, C45_split hc _ y d h2, C45_endash hc ws _ ws' hws (Or.inl rfl) hws']
    rfl

/-- So a paragraph break beside a dash is lost: it is white space like any other. (The typography is processed
before the paragraphs.) -/
theorem C45_paragraph_break_lost (hc : Classes sp word) (hnl : sp '\n' = true) (x y : Str) (c d : Char)
    (h1 : Plain sp c) (h2 : Plain sp d) :
    en sp (em sp (x ++ c :: ("\n\n".toList ++ "---".toList ++ [] ++ d :: y))) =
      en sp (em sp x) ++ c :: '—' :: d :: en sp (em sp y) :=
  (C45_dash_in_text hc x y "\n\n".toList [] c d h1 h2 (by simpa using hnl) (by simp)).1

/-! ## Trees -/

mutual
theorem typoTree_idem (hc : Classes sp word) (proc : Str → Bool) : ∀ t,
    typoTree sp word proc (typoTree sp word proc t) = typoTree sp word proc t
  | .str s => by simp [typoTree, C45_stable hc]
  | .tag c t => by
    by_cases h : proc c = true
    · simp [typoTree, h, typoTree_idem hc proc t]
    · simp [typoTree, h]
  | .list l => by simp [typoTree, typoTrees_idem hc proc l]

theorem typoTrees_idem (hc : Classes sp word) (proc : Str → Bool) : ∀ l,
    typoTrees sp word proc (typoTrees sp word proc l) = typoTrees sp word proc l
  | [] => rfl
  | t :: l => by simp [typoTrees, typoTree_idem hc proc t, typoTrees_idem hc proc l]
end

mutual
theorem typoTree_shape (proc : Str → Bool) : ∀ t, shape (typoTree sp word proc t) = shape t
  | .str s => rfl
  | .tag c t => by
    by_cases h : proc c = true
    · simp [typoTree, h, shape, typoTree_shape proc t]
    · simp [typoTree, h]
  | .list l => by simp [typoTree, shape, typoTrees_shape proc l]

theorem typoTrees_shape (proc : Str → Bool) : ∀ l, shapes (typoTrees sp word proc l) = shapes l
  | [] => rfl
  | t :: l => by simp [typoTrees, shapes, typoTree_shape proc t, typoTrees_shape proc l]
end

mutual
theorem typoTree_parts (proc : Str → Bool) : ∀ t,
    parts proc (typoTree sp word proc t) = (parts proc t).map (setPart (typo sp word))
  | .str s => rfl
  | .tag c t => by
    by_cases h : proc c = true
    · simp [typoTree, h, parts, typoTree_parts proc t]
    · simp [typoTree, h, parts, setPart]
  | .list l => by simp [typoTree, parts, typoTrees_parts proc l]

theorem typoTrees_parts (proc : Str → Bool) : ∀ l,
    allParts proc (typoTrees sp word proc l) = (allParts proc l).map (setPart (typo sp word))
  | [] => rfl
  | t :: l => by simp [typoTrees, allParts, typoTree_parts proc t, typoTrees_parts proc l]
end

/-- C45: a tag is processed once for itself and once more for each tag around it; the result is that of processing
it once. -/
theorem C45_tree_stable (hc : Classes sp word) (proc : Str → Bool) (t : Tags.Tree) :
    typoTree sp word proc (typoTree sp word proc t) = typoTree sp word proc t := typoTree_idem hc proc t

/-- C45: the tags and lists stay as they are; each string outside of the tags whose typography is not processed (such
as code) is set, and those in them are left alone. -/
theorem C45_tree (proc : Str → Bool) (t : Tags.Tree) :
    shape (typoTree sp word proc t) = shape t ∧
    parts proc (typoTree sp word proc t) = (parts proc t).map (setPart (typo sp word)) :=
  ⟨typoTree_shape proc t, typoTree_parts proc t⟩

/-! ## Examples -/

/-- ASCII classes with the no-break space. -/
def asciiSp (c : Char) : Bool := c = ' ' || c = '\n' || c = '\t' || c = '\u00a0'
def asciiWord (c : Char) : Bool := c.isAlphanum || c = '_'

theorem ascii_classes : Classes asciiSp asciiWord := by
  refine ⟨?_, by decide⟩
  intro c h
  unfold asciiSp at h
  simp only [Bool.or_eq_true, decide_eq_true_eq] at h
  rcases h with ((rfl | rfl) | rfl) | rfl <;> decide

example : typo asciiSp asciiWord "It's \"all\" 'so' -- yes --- a-b".toList = "It’s “all” ‘so’–yes—a-b".toList := by decide

/-- At the ends of a text. -/
example : typo asciiSp asciiWord "'a'".toList = "‘a’".toList ∧ typo asciiSp asciiWord "\"a\"".toList = "“a”".toList ∧
    typo asciiSp asciiWord "'".toList = "'".toList := by decide

/-- The texts of two paragraphs are joined. -/
example : typo asciiSp asciiWord "one.\n\n--- two".toList = "one.—two".toList := by decide

/-- Options of commands are changed. -/
example : typo asciiSp asciiWord "use --help".toList = "use–help".toList := by decide

example : Plain asciiSp '.' ∧ Plain asciiSp 't' := by unfold Plain; decide

end Verif.Typography
