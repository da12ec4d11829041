import Verif.Lemmas.Paragraphs
import Mathlib.Data.List.TakeWhile

/-!
# C26: paragraphs
-/

namespace Verif.Para

open Verif

variable (sp : Char → Bool)

/-- C26. Every text has pieces between its blank lines, only one way to have them, and it is split into those. -/
theorem C26_split_at_blank_lines (s : Str) : ∃ ps, Pieces sp s ps ∧ paraSplit sp s = ps ∧ ∀ ps', Pieces sp s ps' → ps' = ps := by
  obtain ⟨ps, h⟩ := pieces_exist sp s.length s (Nat.le_refl _)
  exact ⟨ps, h, paraSplit_of_pieces sp s ps h, fun ps' h' => by
    rw [← paraSplit_of_pieces sp s ps h, paraSplit_of_pieces sp s ps' h']⟩

/-- C26. Grouping: the contents, cut at the blank lines of their strings, are the paragraphs (which are as long as
possible and never empty), the breaks, and the items that are not in paragraphs; and the result is the
paragraphs and those items, in order. So nothing but the blank lines is lost, and nothing is added. -/
theorem C26_group (l : List Item) (ts : List Tok) (h : Toks sp l ts) :
    ∃ bs, Maximal bs ∧ ts = bs.flatMap Block.toks ∧ group sp l = bs.flatMap Block.result := by
  have := group_inv sp l ts h [] ([], []) ⟨[], trivial, by simp, rfl, rfl⟩
  obtain ⟨bs, h1, h2, h3, h4⟩ := this.blocks
  rw [List.nil_append] at h3
  unfold group
  dsimp only
  rw [h4]
  generalize (List.foldl (groupStep sp) ([], []) l).2 = sub at *
  unfold close
  by_cases hs : sub = []
  · subst hs
    exact ⟨bs, h1, by simpa using h3, by simp⟩
  · refine ⟨bs ++ [.para sub], maximal_append bs [.para sub] h1 ⟨hs, by simp, trivial⟩ fun x hx hp => absurd hp (h2 x hx), by simp [h3, Block.toks], ?_⟩
    have : sub.isEmpty = false := by cases sub <;> simp_all
    simp [this, Block.result]

/-- The parts exist for all contents. -/
theorem C26_group_applies (l : List Item) : ∃ ts, Toks sp l ts := toks_exist sp l

/-- There is only one way to cut parts into paragraphs that are as long as possible. -/
theorem C26_blocks_unique (bs cs : List Block) (hb : Maximal bs) (hc : Maximal cs)
    (h : bs.flatMap Block.toks = cs.flatMap Block.toks) : bs = cs := by
  -- a paragraph ends where the leaves end
  have leaf : ∀ (l l' : List Item) (x y : List Tok), l.map Tok.leaf ++ x = l'.map Tok.leaf ++ y →
      (∀ t ∈ x.head?, ∀ i, t ≠ .leaf i) → (∀ t ∈ y.head?, ∀ i, t ≠ .leaf i) → l = l' ∧ x = y := by
    intro l
    induction l with
    | nil =>
      intro l' x y he hx hy
      cases l' with
      | nil => exact ⟨rfl, by simpa using he⟩
      | cons i l' =>
        simp only [List.map_nil, List.nil_append, List.map_cons, List.cons_append] at he
        rw [he] at hx
        exact absurd rfl (hx (.leaf i) (by simp) i)
    | cons i l ih =>
      intro l' x y he hx hy
      cases l' with
      | nil =>
        simp only [List.map_nil, List.nil_append, List.map_cons, List.cons_append] at he
        rw [← he] at hy
        exact absurd rfl (hy (.leaf i) (by simp) i)
      | cons j l' =>
        simp only [List.map_cons, List.cons_append, List.cons.injEq, Tok.leaf.injEq] at he
        obtain ⟨rfl, rfl⟩ := ih l' x y he.2 hx hy
        exact ⟨by rw [he.1], rfl⟩
  have headNot : ∀ bs : List Block, (∀ b ∈ bs.head?, ¬ b.isPara) → ∀ t ∈ (bs.flatMap Block.toks).head?, ∀ i, t ≠ .leaf i := by
    intro bs hbs t ht i
    cases bs with
    | nil => simp at ht
    | cons b bs =>
      cases b with
      | para l => exact absurd (show (Block.para l).isPara from trivial) (hbs (.para l) (by simp))
      | brk => simp [Block.toks] at ht; rw [← ht]; simp
      | out j => simp [Block.toks] at ht; rw [← ht]; simp
  have headPara : ∀ (l : List Item) (bs : List Block), l ≠ [] → ∃ i l', (Block.para l :: bs).flatMap Block.toks = .leaf i :: l' := by
    intro l bs hl
    cases l with
    | nil => exact absurd rfl hl
    | cons i l => exact ⟨i, l.map .leaf ++ bs.flatMap Block.toks, by simp [Block.toks]⟩
  induction bs generalizing cs with
  | nil =>
    cases cs with
    | nil => rfl
    | cons c cs =>
      cases c with
      | para l => obtain ⟨i, l', h'⟩ := headPara l cs hc.1; rw [h'] at h; simp at h
      | brk => simp [Block.toks] at h
      | out i => simp [Block.toks] at h
  | cons b bs ih =>
    cases b with
    | para l =>
      cases cs with
      | nil => obtain ⟨i, l', h'⟩ := headPara l bs hb.1; rw [h'] at h; simp at h
      | cons c cs =>
        cases c with
        | para l' =>
          rw [List.flatMap_cons, List.flatMap_cons] at h
          obtain ⟨rfl, h2⟩ := leaf l l' _ _ h (headNot bs hb.2.1) (headNot cs hc.2.1)
          rw [ih cs hb.2.2 hc.2.2 h2]
        | brk => obtain ⟨i, l', h'⟩ := headPara l bs hb.1; rw [h'] at h; simp [Block.toks] at h
        | out i => obtain ⟨i, l', h'⟩ := headPara l bs hb.1; rw [h'] at h; simp [Block.toks] at h
    | brk =>
      cases cs with
      | nil => simp [Block.toks] at h
      | cons c cs =>
        cases c with
        | para l => obtain ⟨i, l', h'⟩ := headPara l cs hc.1; rw [h'] at h; simp [Block.toks] at h
        | brk =>
          simp only [List.flatMap_cons, Block.toks, List.singleton_append, List.cons.injEq, true_and] at h
          rw [ih cs hb hc h]
        | out i => simp [Block.toks] at h
    | out i =>
      cases cs with
      | nil => simp [Block.toks] at h
      | cons c cs =>
        cases c with
        | para l => obtain ⟨i, l', h'⟩ := headPara l cs hc.1; rw [h'] at h; simp [Block.toks] at h
        | brk => simp [Block.toks] at h
        | out j =>
          simp only [List.flatMap_cons, Block.toks, List.singleton_append, List.cons.injEq, Tok.out.injEq] at h
          rw [ih cs hb hc h.2, h.1]

/-- Items that are left alone: everything that is not to be put in a paragraph. -/
def Alone : Item → Prop
  | .str _ => False
  | .obj _ incl _ => incl = false
  | .list _ => True
  | .p _ => True

theorem group_alone (l : List Item) (h : ∀ i ∈ l, Alone i) : group sp l = l := by
  have key : ∀ (l o : List Item), (∀ i ∈ l, Alone i) → l.foldl (groupStep sp) (o, []) = (o ++ l, []) := by
    intro l
    induction l with
    | nil => intro o _; simp
    | cons i l ih =>
      intro o h
      have hi := h i (by simp)
      have hrest := fun o' => ih o' fun j hj => h j (by simp [hj])
      rw [List.foldl_cons]
      have : groupStep sp (o, []) i = (o ++ [i], []) := by
        cases i with
        | str s => exact absurd hi (by simp [Alone])
        | obj i b t => simp only [Alone] at hi; subst hi; simp [groupStep, close]
        | list l => simp [groupStep, close]
        | p c => simp [groupStep, close]
      rw [this, hrest]; simp
  unfold group
  rw [key l [] h]
  simp [close]

/-- C26. Grouping twice is grouping once. -/
theorem C26_idempotent (l : List Item) : group sp (group sp l) = group sp l := by
  apply group_alone
  obtain ⟨ts, h⟩ := toks_exist sp l
  obtain ⟨bs, _, h2, h3⟩ := C26_group sp l ts h
  rw [h3]
  -- what is outside of paragraphs comes from the contents
  have hout : ∀ i, Tok.out i ∈ ts → Alone i := by
    clear h2 h3
    induction h with
    | nil => simp
    | cons hi _ ih =>
      intro i hi'
      rcases List.mem_append.1 hi' with hm | hm
      · cases hi with
        | str hp =>
          rename_i ps
          exfalso
          clear hp hi'
          induction ps with
          | nil => simp [pieceToks] at hm
          | cons p ps ihp =>
            cases ps with
            | nil => simp only [pieceToks] at hm; split at hm <;> simp at hm
            | cons q ps =>
              rw [pieceToks] at hm
              · rcases List.mem_append.1 hm with hm | hm
                · split at hm <;> simp at hm
                · rcases List.mem_cons.1 hm with hm | hm
                  · simp at hm
                  · exact ihp hm
              · simp
        | incl => simp at hm
        | excl => simp at hm; subst hm; simp [Alone]
        | list => simp at hm; subst hm; trivial
        | p => simp at hm; subst hm; trivial
      · exact ih i hm
  intro i hi
  rw [List.mem_flatMap] at hi
  obtain ⟨b, hb, hi⟩ := hi
  cases b with
  | para l => simp [Block.result] at hi; subst hi; trivial
  | brk => simp [Block.result] at hi
  | out j =>
    simp [Block.result] at hi
    subst hi
    apply hout
    rw [h2, List.mem_flatMap]
    exact ⟨_, hb, by simp [Block.toks]⟩

/-! ### Cleaning -/

theorem strip_isEmpty (s : Str) : (strip sp s).isEmpty = true ↔ ∀ c ∈ s, sp c = true := by
  rw [List.isEmpty_iff]
  unfold strip rstrip lstrip
  rw [List.reverse_eq_nil_iff, List.dropWhile_eq_nil_iff]
  constructor
  · intro h c hc
    by_cases hm : c ∈ s.dropWhile sp
    · exact h c (by simpa using hm)
    · rw [← List.takeWhile_append_dropWhile (p := sp) (l := s)] at hc
      rcases List.mem_append.1 hc with h' | h'
      · exact takeWhile_all sp s c h'
      · exact absurd h' hm
  · intro h c hc
    exact h c ((List.dropWhile_suffix sp).subset (by simpa using hc))

/-- C26. Cleaning removes exactly the paragraphs that have nothing but whitespace, and keeps the order. -/
theorem C26_clean (l : List Item) :
    (clean sp l).Sublist l ∧
    ∀ i ∈ l, i ∈ clean sp l ↔ ¬ ∃ sub, i = .list sub ∧ ∀ x ∈ sub, ∃ s, x = .str s ∧ ∀ c ∈ s, sp c = true := by
  refine ⟨List.filter_sublist, ?_⟩
  intro i hi
  unfold clean
  rw [List.mem_filter]
  cases i with
  | list sub =>
    have hall : sub.all (blankStr sp) = true ↔ ∀ x ∈ sub, ∃ s, x = .str s ∧ ∀ c ∈ s, sp c = true := by
      rw [List.all_eq_true]
      constructor
      · intro h x hx
        have := h x hx
        cases x with
        | str s => exact ⟨s, rfl, (strip_isEmpty sp s).1 this⟩
        | obj => simp [blankStr] at this
        | list => simp [blankStr] at this
        | p => simp [blankStr] at this
      · intro h x hx
        obtain ⟨s, rfl, hs⟩ := h x hx
        exact (strip_isEmpty sp s).2 hs
    constructor
    · rintro ⟨_, h⟩ ⟨sub', he, hs⟩
      simp only [Item.list.injEq] at he
      subst he
      dsimp only at h
      rw [hall.2 hs] at h; simp at h
    · intro h
      refine ⟨hi, ?_⟩
      dsimp only
      cases hc : sub.all (blankStr sp) with
      | false => rfl
      | true => exact absurd ⟨sub, rfl, hall.1 hc⟩ h
  | str s => exact ⟨by rintro _ ⟨_, h, _⟩; simp at h, fun _ => ⟨hi, rfl⟩⟩
  | obj => exact ⟨by rintro _ ⟨_, h, _⟩; simp at h, fun _ => ⟨hi, rfl⟩⟩
  | p => exact ⟨by rintro _ ⟨_, h, _⟩; simp at h, fun _ => ⟨hi, rfl⟩⟩

/-! ### Roles -/

/-- C26. The role of a tag in a paragraph: `block` if it is the only tag and there is no text but whitespace, `inline`
else. -/
theorem C26_roles (sub : List Item) (i : Nat) (b : Bool) (hi : Item.obj i b true ∈ sub) :
    ((∀ x ∈ sub, TagItem x = true → x = .obj i b true) ∧ (sub.filter TagItem).length = 1 ∧
        (∀ s, Item.str s ∈ sub → ∀ c ∈ s, sp c = true) → rolesOf sp sub = [(i, .block)]) ∧
    (¬ ((sub.filter TagItem).length = 1 ∧ ∀ s, Item.str s ∈ sub → ∀ c ∈ s, sp c = true) →
      rolesOf sp sub = (sub.filterMap tagId).map (·, .inline) ∧ (i, .inline) ∈ rolesOf sp sub) := by
  have hT : TagItem = isTag := by funext x; cases x <;> rfl
  rw [hT]
  have hstr : (sub.filter (textStr sp)).length = 0 ↔ ∀ s, Item.str s ∈ sub → ∀ c ∈ s, sp c = true := by
    rw [List.length_eq_zero_iff, List.filter_eq_nil_iff]
    constructor
    · intro h s hs
      have := h _ hs
      simp only [textStr] at this
      exact (strip_isEmpty sp s).1 (by simpa using this)
    · intro h x hx
      cases x with
      | str s =>
        have := (strip_isEmpty sp s).2 (h s hx)
        simp [textStr, this]
      | obj => simp [textStr]
      | list => simp [textStr]
      | p => simp [textStr]
  have htag : (sub.filter isTag).filterMap tagId = sub.filterMap tagId := by
    rw [List.filterMap_filter]
    congr 1
    funext x
    cases x with
    | obj j b t => cases t <;> simp [isTag, tagId]
    | _ => simp [isTag, tagId]
  constructor
  · rintro ⟨h1, h2, h3⟩
    unfold rolesOf
    dsimp only
    rw [if_pos ⟨h2, hstr.2 h3⟩]
    obtain ⟨x, hx⟩ := List.length_eq_one_iff.1 h2
    have hm : Item.obj i b true ∈ sub.filter isTag := List.mem_filter.2 ⟨hi, rfl⟩
    rw [hx] at hm ⊢
    simp only [List.mem_singleton] at hm
    subst hm
    rfl
  · intro h
    have hlen : sub.length > 1 := by
      apply Classical.byContradiction
      intro hle
      have h1 : sub = [.obj i b true] := by
        cases sub with
        | nil => simp at hi
        | cons x sub =>
          cases sub with
          | nil => simp at hi; rw [hi]
          | cons y sub => simp at hle
      subst h1
      exact h ⟨rfl, by intro s hs; simp at hs⟩
    have he : rolesOf sp sub = (sub.filterMap tagId).map (·, .inline) := by
      unfold rolesOf
      dsimp only
      rw [if_neg (by rw [hstr]; exact h), if_pos hlen, htag]
    refine ⟨he, ?_⟩
    rw [he]
    exact List.mem_map.2 ⟨i, List.mem_filterMap.2 ⟨_, hi, rfl⟩, rfl⟩

/-! ### The whole -/

/-- C26. After processing a text or a list, no bare text or list is left: what is there is a paragraph or an item that
is not in paragraphs. And processing again changes nothing. -/
theorem C26_process (c : Item) (hc : (∃ s, c = .str s) ∨ ∃ l, c = .list l) :
    ∃ r, (process sp c).1 = unwrap1 r ∧ (∀ i ∈ r, (∃ x, i = .p x) ∨ ∃ j t, i = .obj j false t) ∧
      process sp (process sp c).1 = ((process sp c).1, []) := by
  have run : ∀ l : List Item, ∃ r, (clean sp (group sp l)).map toP = r ∧
      (∀ i ∈ r, (∃ x, i = .p x) ∨ ∃ j t, i = .obj j false t) ∧ process sp (unwrap1 r) = (unwrap1 r, []) := by
    intro l
    have hal : ∀ i ∈ group sp l, Alone i := by
      obtain ⟨ts, h⟩ := toks_exist sp l
      -- grouping gives items that are left alone
      have : ∀ (l : List Item) (st : List Item × List Item), (∀ i ∈ st.1, Alone i) →
          ∀ i ∈ (l.foldl (groupStep sp) st).1, Alone i := by
        intro l
        induction l with
        | nil => intro st h; exact h
        | cons i l ih =>
          intro st h
          rw [List.foldl_cons]
          apply ih
          have hcl : ∀ o sub : List Item, (∀ i ∈ o, Alone i) → ∀ i ∈ close o sub, Alone i := by
            intro o sub ho i hi
            unfold close at hi
            split at hi
            · exact ho i hi
            · rcases List.mem_append.1 hi with hi | hi
              · exact ho i hi
              · simp at hi; subst hi; trivial
          have happ : ∀ (o : List Item) (x : Item), (∀ i ∈ o, Alone i) → Alone x → ∀ i ∈ o ++ [x], Alone i := by
            intro o x ho hx i hi
            rcases List.mem_append.1 hi with hi | hi
            · exact ho i hi
            · simp at hi; subst hi; exact hx
          cases i with
          | str s =>
            have : ∀ (ps : List Str) (o sub : List Item), (∀ i ∈ o, Alone i) → ∀ i ∈ (addPieces o sub ps).1, Alone i := by
              intro ps
              induction ps with
              | nil => intro o sub ho; exact ho
              | cons p ps ih =>
                intro o sub ho
                cases ps with
                | nil => exact ho
                | cons q ps =>
                  rw [addPieces]
                  · exact ih _ _ (hcl _ _ ho)
                  · simp
            exact this _ _ _ h
          | obj i b t =>
            cases b with
            | true => exact h
            | false => exact happ _ _ (hcl _ _ h) rfl
          | list l => exact happ _ _ (hcl _ _ h) trivial
          | p c => exact happ _ _ (hcl _ _ h) trivial
      intro i hi
      unfold group at hi
      dsimp only at hi
      unfold close at hi
      split at hi
      · exact this l ([], []) (by simp) i hi
      · rcases List.mem_append.1 hi with hi | hi
        · exact this l ([], []) (by simp) i hi
        · simp at hi; subst hi; trivial
    have hr : ∀ i ∈ (clean sp (group sp l)).map toP, (∃ x, i = .p x) ∨ ∃ j t, i = .obj j false t := by
      intro i hi
      obtain ⟨j, hj, rfl⟩ := List.mem_map.1 hi
      have := hal j (List.filter_sublist.subset hj)
      cases j with
      | str s => exact absurd this (by simp [Alone])
      | obj j b t => simp only [Alone] at this; subst this; exact Or.inr ⟨j, t, rfl⟩
      | list l => exact Or.inl ⟨_, rfl⟩
      | p c => exact Or.inl ⟨_, rfl⟩
    refine ⟨_, rfl, hr, ?_⟩
    generalize (clean sp (group sp l)).map toP = r at hr
    have hlist : ∀ r : List Item, (∀ i ∈ r, (∃ x, i = .p x) ∨ ∃ j t, i = .obj j false t) →
        clean sp (group sp r) = r ∧ r.map toP = r ∧ roles sp r = [] := by
      intro r hr
      refine ⟨?_, ?_, ?_⟩
      · rw [group_alone sp r fun i hi => by
          rcases hr i hi with ⟨x, rfl⟩ | ⟨j, t, rfl⟩
          · trivial
          · rfl]
        unfold clean
        rw [List.filter_eq_self]
        intro i hi
        rcases hr i hi with ⟨x, rfl⟩ | ⟨j, t, rfl⟩ <;> rfl
      · conv => rhs; rw [← List.map_id r]
        apply List.map_congr_left
        intro i hi
        rcases hr i hi with ⟨x, rfl⟩ | ⟨j, t, rfl⟩ <;> rfl
      · unfold roles
        rw [List.flatMap_eq_nil_iff]
        intro i hi
        rcases hr i hi with ⟨x, rfl⟩ | ⟨j, t, rfl⟩ <;> rfl
    obtain ⟨e1, e2, e3⟩ := hlist r hr
    match r, hr, e1, e2, e3 with
    | [], _, _, _, _ => rfl
    | [x], hr, _, _, _ =>
      rcases hr x (by simp) with ⟨y, rfl⟩ | ⟨j, t, rfl⟩ <;> rfl
    | x :: y :: r, _, e1, e2, e3 =>
      show process sp (.list (x :: y :: r)) = _
      unfold process
      dsimp only
      rw [e1, e2, e3]
  rcases hc with ⟨s, rfl⟩ | ⟨l, rfl⟩
  · obtain ⟨r, h1, h2, h3⟩ := run [.str s]
    refine ⟨r, ?_, h2, ?_⟩
    · show unwrap1 _ = _; rw [h1]
    · have : (process sp (.str s)).1 = unwrap1 r := by show unwrap1 _ = _; rw [h1]
      rw [this]; exact h3
  · obtain ⟨r, h1, h2, h3⟩ := run l
    refine ⟨r, ?_, h2, ?_⟩
    · show unwrap1 _ = _; rw [h1]
    · have : (process sp (.list l)).1 = unwrap1 r := by show unwrap1 _ = _; rw [h1]
      rw [this]; exact h3

/-- Finding: contents of whitespace only become an empty list. -/
theorem C26_blank_content : (process (fun c => c = ' ' || c = '\n') (.str " \n\n ".toList)).1 = .list [] := rfl

/-- The example of the documentation, with a figure between the paragraphs. -/
example : group (fun c => c = ' ' || c = '\n')
    [.obj 1 true true, .str "three".toList, .str "four \n\n five".toList, .obj 6 true true, .obj 7 false true, .str "\n\neight".toList] =
    [.list [.obj 1 true true, .str "three".toList, .str "four".toList], .list [.str "five".toList, .obj 6 true true],
     .obj 7 false true, .list [.str "eight".toList]] := rfl

end Verif.Para
