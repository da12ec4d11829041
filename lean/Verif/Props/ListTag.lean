import Verif.Lemmas.ListTag

/-!
# C27: lists
-/

namespace Verif.ListTag

open Verif

variable (sp : Char → Bool)

/-- Bullets are not spaces. -/
def BulletsNotSpaces : Prop := ∀ c, isBullet c = true → sp c = false

/-- C27. Every text has one cut at its bullets, and its list items are those of the cut, in order, each with its text
and the number of spaces before its bullet. -/
theorem C27_parse (hsp : BulletsNotSpaces sp) (s : Str) :
    (∃ pre items, Cut sp true s pre items) ∧
    ∀ pre items, Cut sp true s pre items → parseStringList sp s = items.map fun m => (m.1.count ' ', strip sp m.2) := by
  refine ⟨cut_exists sp s.length s true (Nat.le_refl _), fun pre items h => ?_⟩
  unfold parseStringList
  rw [cutGo_of_cut sp hsp h]

/-- C27. A cut loses nothing: the text is what is before the first bullet, and then the spaces, the bullet and the
text of each. -/
theorem C27_parse_all (bol : Bool) (s pre : Str) (items : List (Str × Str)) (h : Cut sp bol s pre items) :
    ∃ bs : List Char, bs.length = items.length ∧ (∀ b ∈ bs, b = '*' ∨ b = '-') ∧
      s = pre ++ (items.zip bs).flatMap fun m => m.1.1 ++ m.2 :: m.1.2 := by
  induction h with
  | last h => exact ⟨[], rfl, by simp, by simp⟩
  | bullet hb _ _ ih =>
    rename_i b _ _ _ _ _
    obtain ⟨bs, h1, h2, h3⟩ := ih
    refine ⟨b :: bs, by simp [h1], ?_, ?_⟩
    · intro x hx
      rcases List.mem_cons.1 hx with rfl | hx
      · exact hb.2.2
      · exact h2 x hx
    · rw [List.zip_cons_cons, List.flatMap_cons]
      dsimp only
      rw [h3]
      simp [List.append_assoc]

/-- C27. Cleaning changes only spaces, and leaves no line break with a space after it. -/
theorem C27_clean (h1 : sp ' ' = true) (h2 : sp '\n' = true) (s : Str) :
    (cleanGo sp s 0).filter (fun c => !sp c) = s.filter (fun c => !sp c) ∧
    ∀ a c b, cleanGo sp s 0 = a ++ '\n' :: c :: b → sp c = false :=
  ⟨cleanGo_filter sp h1 s.length s (Nat.le_refl _), fun a c b h => cleanGo_newline sp s.length s (Nat.le_refl _) a c b h h2⟩

/-- C27. Cleaning leaves a text on one line alone. -/
theorem C27_clean_one_line (s : Str) (h : '\n' ∉ s) : cleanGo sp s 0 = s := by
  induction s with
  | nil => rfl
  | cons c s ih =>
    rw [cleanGo_cons, if_neg, ih (by simp at h; exact h.2)]
    intro hm
    exact h ((List.takeWhile_sublist sp).subset ((List.dropLast_sublist _).subset hm))

/-- C27. Levels: every item is kept, in order; its level is half of its indentation relative to the least indented,
rounded up. -/
theorem C27_levels {α : Type} (l : List (Nat × α)) :
    (normalizeLevels 2 l).map (·.2) = l.map (·.2) ∧
    ∀ p ∈ l.zip (normalizeLevels 2 l),
      ((∀ e ∈ l, p.1.1 ≤ e.1) → p.2.1 = 0) ∧
      (∀ e ∈ l, (∀ e' ∈ l, e.1 ≤ e'.1) → p.1.1 ≤ e.1 + 2 * p.2.1 ∧ e.1 + 2 * p.2.1 < p.1.1 + 2) ∧
      (∀ q ∈ l.zip (normalizeLevels 2 l), (p.1.1 ≤ q.1.1 → p.2.1 ≤ q.2.1) ∧ (p.1.1 + 2 ≤ q.1.1 → p.2.1 < q.2.1)) := by
  constructor
  · unfold normalizeLevels; simp [List.map_map, Function.comp_def]
  · have hz : ∀ p ∈ l.zip (normalizeLevels 2 l), p.1 ∈ l ∧ p.2.1 = (p.1.1 - minLevel l + 1) / 2 := by
      intro p hp
      unfold normalizeLevels at hp
      rw [List.zip_map_right] at hp
      obtain ⟨⟨x, y⟩, hxy, rfl⟩ := List.mem_map.1 hp
      have hm := List.of_mem_zip hxy
      have : x = y := by
        have : ∀ (l : List (Nat × α)), (x, y) ∈ l.zip l → x = y := by
          intro l
          induction l with
          | nil => simp
          | cons z l ih =>
            intro h
            rw [List.zip_cons_cons] at h
            rcases List.mem_cons.1 h with h | h
            · simp at h; rw [h.1, h.2]
            · exact ih h
        exact this l hxy
      subst this
      exact ⟨hm.1, rfl⟩
    intro p hp
    obtain ⟨hp1, hp2⟩ := hz p hp
    have hmin := minLevel_le l
    obtain ⟨m, hm, hme⟩ := minLevel_mem l (by intro h; subst h; simp at hp1)
    have hpm := hmin _ hp1
    refine ⟨?_, ?_, ?_⟩
    · intro h
      have := h m hm
      omega
    · intro e he hall
      have h1 := hall m hm
      have h2 := hmin e he
      omega
    · intro q hq
      obtain ⟨hq1, hq2⟩ := hz q hq
      have hqm := hmin _ hq1
      constructor
      · intro h; omega
      · intro h; omega

/-- C27. The html list has every item once, in order, at any levels. -/
theorem C27_html_order {α : Type} (es : List (Nat × α)) :
    (Node.items 0 (renderList es)).map (·.2) = es.map (·.2) :=
  items_xhtmlList es.length _ es 0 (Nat.le_refl _) (Nat.le_succ _)

/-- C27. When levels start at the least one and go up by one at most, the depth of each item is its level. -/
theorem C27_html_depth_partial {α : Type} (es : List (Nat × α)) (h : WellNested 0 es) :
    Node.items 0 (renderList es) = es :=
  depth_xhtmlList es.length _ es 0 (Nat.le_refl _) (Nat.le_succ _) h

/-- The tex list has the level of every item plus one as the number of marks. -/
theorem C27_tex (e : Nat × Str) (h : '§' ∉ e.2) : (texItem e).count '§' = e.1 + 1 ∧
    ∃ post, texItem e = List.replicate (e.1 + 1) '§' ++ ' ' :: post ∧ e.2 <+: post := by
  have hc := List.count_eq_zero_of_not_mem h
  constructor
  · have h1 : '§' ≠ ' ' := by decide
    have h2 : '§' ≠ '\n' := by decide
    simp [texItem, hc]
  · exact ⟨e.2 ++ ['\n'], by simp [texItem], List.prefix_append _ _⟩

/-- Finding: an item of a lower level than the first one, or after a level was skipped, is nested in the item before
it, so that the depth is not the level. -/
theorem C27_html_depth_false :
    Node.items 0 (renderList [(1, 'a'), (0, 'b')]) = [(0, 'a'), (1, 'b')] ∧
    Node.items 0 (renderList [(0, 'a'), (2, 'b'), (1, 'c')]) = [(0, 'a'), (1, 'b'), (2, 'c')] := ⟨rfl, rfl⟩

/-- Spaces for the examples. -/
def exSp (c : Char) : Bool := c = ' ' || c = '\n' || c = '\t'

/-- Finding: spaces on blank lines before an item count as its indentation. -/
theorem C27_blank_line_counts :
    listItems exSp "- a\n- b\n\n- c".toList = [(0, "a".toList), (0, "b".toList), (0, "c".toList)] ∧
    listItems exSp "- a\n- b\n  \n- c".toList = [(0, "a".toList), (0, "b".toList), (1, "c".toList)] := ⟨rfl, rfl⟩

example : BulletsNotSpaces exSp := by
  intro c h
  rcases (isBullet_iff c).1 h with rfl | rfl <;> rfl

/-- A list on more lines, and deep from the start. -/
example : listItems exSp "intro\n   - a\n   - b b\n     b\n      * c\n   - d".toList =
    [(0, "a".toList), (0, "b b b".toList), (2, "c".toList), (0, "d".toList)] := rfl

example : WellNested 0 [(0, 'a'), (1, 'b'), (2, 'c'), (0, 'd')] := by
  refine ⟨rfl, ⟨by decide, by decide, by decide, trivial⟩, by decide⟩

end Verif.ListTag
