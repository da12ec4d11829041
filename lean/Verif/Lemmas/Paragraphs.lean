import Verif.Spec.Paragraphs

namespace Verif.Para

open Verif

variable (sp : Char → Bool)

theorem takeWhile_all (s : Str) : ∀ c ∈ s.takeWhile sp, sp c = true := by
  induction s with
  | nil => simp
  | cons a s ih =>
    rw [List.takeWhile_cons]
    split
    · rename_i h
      intro c hc
      rcases List.mem_cons.1 hc with rfl | hc
      · exact h
      · exact ih c hc
    · simp

theorem takeWhile_app (w r : Str) (hw : ∀ c ∈ w, sp c = true) (hr : ∀ c ∈ r.head?, sp c = false) :
    (w ++ r).takeWhile sp = w := by
  induction w with
  | nil =>
    cases r with
    | nil => rfl
    | cons a r => simp [hr a (by simp)]
  | cons a w ih => simp [hw a (by simp), ih fun c hc => hw c (by simp [hc])]

theorem dropWhile_head (s : Str) : ∀ c ∈ (s.dropWhile sp).head?, sp c = false := by
  intro c hc
  have := List.head?_dropWhile_not sp s
  cases h : (s.dropWhile sp).head? with
  | none => rw [h] at hc; simp at hc
  | some d =>
    rw [h] at hc this
    simp only [Option.mem_some_iff] at hc
    subst hc
    simpa using this

theorem paraSplitGo_skip (x s : Str) : paraSplitGo sp (x ++ s) x.length = paraSplitGo sp s 0 := by
  induction x with
  | nil => rfl
  | cons c x ih => simpa [paraSplitGo] using ih

theorem paraSplitGo_ne_nil (s : Str) (k : Nat) : paraSplitGo sp s k ≠ [] := by
  induction s generalizing k with
  | nil => simp [paraSplitGo]
  | cons c t ih =>
    cases k with
    | succ k => exact ih k
    | zero =>
      rw [paraSplitGo]
      split
      · simp
      · split <;> simp

/-- No blank line begins in a text without blank lines that a text follows whose first character is no space. -/
theorem paraAt_none (p r : Str) (hp : ¬ HasBlank sp p) (hr : ∀ c ∈ p.getLast?, r ≠ [] → sp c = false) (hne : p ≠ []) :
    paraAt sp (p ++ r) = none := by
  unfold paraAt
  rw [if_neg]
  intro h
  by_cases hr' : r = []
  · subst hr'
    rw [List.append_nil] at h
    exact hp ⟨_, (List.takeWhile_prefix sp).isInfix, takeWhile_all sp p, h⟩
  · -- the run of whitespace ends within `p`
    obtain ⟨q, c, rfl⟩ : ∃ q c, p = q ++ [c] := ⟨p.dropLast, p.getLast hne, (List.dropLast_concat_getLast hne).symm⟩
    have hc := hr c (by simp) hr'
    have : (q ++ [c] ++ r).takeWhile sp = (q ++ [c]).takeWhile sp := by
      clear h hp hne hr
      induction q with
      | nil => simp [hc]
      | cons a q ih => simp only [List.cons_append, List.takeWhile_cons]; rw [ih]
    rw [this] at h
    exact hp ⟨_, (List.takeWhile_prefix sp).isInfix, takeWhile_all sp _, h⟩

theorem hasBlank_tail (c : Char) (t : Str) (h : ¬ HasBlank sp (c :: t)) : ¬ HasBlank sp t := by
  rintro ⟨w, hw, hb⟩
  exact h ⟨w, hw.trans (List.suffix_cons c t).isInfix, hb⟩

theorem getLast?_tail (c : Char) (t : Str) (hne : t ≠ []) : (c :: t).getLast? = t.getLast? := by
  cases t with
  | nil => exact absurd rfl hne
  | cons a t => simp [List.getLast?_cons]

theorem split_plain (p r : Str) (hp : ¬ HasBlank sp p) (hr : ∀ c ∈ p.getLast?, r ≠ [] → sp c = false) (q : Str) (qs : List Str)
    (hs : paraSplitGo sp r 0 = q :: qs) : paraSplitGo sp (p ++ r) 0 = (p ++ q) :: qs := by
  induction p with
  | nil => exact hs
  | cons c t ih =>
    rw [List.cons_append, paraSplitGo]
    have := paraAt_none sp (c :: t) r hp hr (by simp)
    rw [List.cons_append] at this
    rw [this]
    dsimp only
    rw [ih (hasBlank_tail sp c t hp)]
    · rfl
    · intro d hd
      by_cases ht : t = []
      · subst ht; simp at hd
      · exact hr d (by rw [getLast?_tail c t ht]; exact hd)

/-- The pieces are what the code splits a text into. -/
theorem paraSplit_of_pieces (s : Str) (ps : List Str) (h : Pieces sp s ps) : paraSplit sp s = ps := by
  unfold paraSplit
  induction h with
  | last h =>
    rename_i s
    have := split_plain sp s [] h (by intro c _ h; exact absurd rfl h) [] [] rfl
    simpa using this
  | cons hp he hw hr h ih =>
    rename_i p w r ps
    have hwne : w ≠ [] := by rintro rfl; have := hw.2; simp at this
    obtain ⟨a, w', rfl⟩ : ∃ a w', w = a :: w' := by
      cases w with
      | nil => exact absurd rfl hwne
      | cons a w' => exact ⟨a, w', rfl⟩
    have hstep : paraSplitGo sp (a :: w' ++ r) 0 = [] :: ps := by
      have ht := takeWhile_app sp (a :: w') r hw.1 hr
      have hat : paraAt sp (a :: (w' ++ r)) = some (a :: w').length := by
        unfold paraAt
        rw [List.cons_append] at ht
        rw [ht, if_pos hw.2]
      rw [List.cons_append, paraSplitGo, hat]
      dsimp only
      rw [List.length_cons, Nat.add_sub_cancel, paraSplitGo_skip, ih]
    have := split_plain sp p (a :: w' ++ r) hp (fun c hc _ => he c hc) [] ps hstep
    rw [List.append_assoc, this, List.append_nil]

/-- Where a blank line can be in a longer text. -/
theorem hasBlank_cons (c : Char) (t : Str) (h : HasBlank sp (c :: t)) (ht : ¬ HasBlank sp t) :
    2 ≤ ((c :: t).takeWhile sp).count '\n' := by
  obtain ⟨w, hw, hb⟩ := h
  rcases List.infix_cons_iff.1 hw with hw | hw
  · obtain ⟨r, hr⟩ := hw
    have key : ∀ w : Str, (∀ c ∈ w, sp c = true) → w <+: (w ++ r).takeWhile sp := by
      intro w hb
      induction w with
      | nil => simp
      | cons a w ih =>
        rw [List.cons_append, List.takeWhile_cons, if_pos (hb a (by simp))]
        exact List.cons_prefix_cons.2 ⟨rfl, ih fun c hc => hb c (by simp [hc])⟩
    have := key w hb.1
    rw [hr] at this
    exact Nat.le_trans hb.2 (this.sublist.count_le _)
  · exact absurd ⟨w, hw, hb⟩ ht

theorem pieces_exist (n : Nat) (s : Str) (hn : s.length ≤ n) : ∃ ps, Pieces sp s ps := by
  induction n generalizing s with
  | zero =>
    have : s = [] := List.length_eq_zero_iff.1 (by omega)
    subst this
    refine ⟨[[]], .last ?_⟩
    rintro ⟨w, hw, hb⟩
    have : w = [] := by simpa using hw
    subst this
    have := hb.2; simp at this
  | succ n ih =>
    by_cases hb : HasBlank sp s
    · -- the first run of whitespace with two newlines
      have : ∃ p w r, s = p ++ w ++ r ∧ ¬ HasBlank sp p ∧ (∀ c ∈ p.getLast?, sp c = false) ∧ Blank sp w ∧
          (∀ c ∈ r.head?, sp c = false) := by
        clear ih hn
        induction s with
        | nil =>
          obtain ⟨w, hw, hb⟩ := hb
          have : w = [] := by simpa using hw
          subst this
          have := hb.2; simp at this
        | cons c t iht =>
          by_cases ht : 2 ≤ ((c :: t).takeWhile sp).count '\n'
          · refine ⟨[], (c :: t).takeWhile sp, (c :: t).dropWhile sp, by simp [List.takeWhile_append_dropWhile], ?_, by simp,
              ⟨takeWhile_all sp _, ht⟩, dropWhile_head sp _⟩
            rintro ⟨w, hw, hb⟩
            have : w = [] := by simpa using hw
            subst this
            have := hb.2; simp at this
          · have hbt : HasBlank sp t := Classical.byContradiction fun h => ht (hasBlank_cons sp c t hb h)
            obtain ⟨p, w, r, rfl, h1, h2, h3, h4⟩ := iht hbt
            refine ⟨c :: p, w, r, rfl, ?_, ?_, h3, h4⟩
            · intro hcp
              have h5 := hasBlank_cons sp c p hcp h1
              apply ht
              have hpre : (c :: p).takeWhile sp <+: (c :: (p ++ w ++ r)).takeWhile sp := by
                rw [List.append_assoc, ← List.cons_append]
                generalize w ++ r = x
                generalize c :: p = y
                induction y with
                | nil => simp
                | cons a y ihy =>
                  rw [List.cons_append, List.takeWhile_cons, List.takeWhile_cons]
                  split
                  · exact List.cons_prefix_cons.2 ⟨rfl, ihy⟩
                  · simp
              exact Nat.le_trans h5 (hpre.sublist.count_le _)
            · intro d hd
              by_cases hp : p = []
              · subst hp
                simp only [List.getLast?_singleton, Option.mem_some_iff] at hd
                subst hd
                -- else the run would begin at `d`
                cases hsp : sp c with
                | false => rfl
                | true =>
                  exfalso
                  apply ht
                  rw [List.nil_append, List.takeWhile_cons, if_pos hsp, takeWhile_app sp w r h3.1 h4, List.count_cons]
                  have := h3.2; omega
              · rw [getLast?_tail c p hp] at hd
                exact h2 d hd
      obtain ⟨p, w, r, rfl, h1, h2, h3, h4⟩ := this
      have hw : w.length ≥ 1 := by
        cases w with
        | nil => have := h3.2; simp at this
        | cons a w => simp
      obtain ⟨ps, hps⟩ := ih r (by simp at hn; omega)
      exact ⟨p :: ps, .cons h1 h2 h3 h4 hps⟩
    · exact ⟨[s], .last hb⟩

theorem toks_exist (l : List Item) : ∃ ts, Toks sp l ts := by
  induction l with
  | nil => exact ⟨[], .nil⟩
  | cons i l ih =>
    obtain ⟨ts, h⟩ := ih
    have : ∃ t, ItemToks sp i t := by
      cases i with
      | str s => obtain ⟨ps, h⟩ := pieces_exist sp s.length s (Nat.le_refl _); exact ⟨_, .str h⟩
      | obj i b t => cases b; exact ⟨_, .excl⟩; exact ⟨_, .incl⟩
      | list l => exact ⟨_, .list⟩
      | p c => exact ⟨_, .p⟩
    obtain ⟨t, ht⟩ := this
    exact ⟨_, .cons ht h⟩

/-! ### Grouping -/

theorem maximal_append (bs cs : List Block) (hb : Maximal bs) (hc : Maximal cs)
    (h : ∀ b ∈ bs.getLast?, b.isPara → ∀ c ∈ cs.head?, ¬ c.isPara) : Maximal (bs ++ cs) := by
  induction bs with
  | nil => exact hc
  | cons b bs ih =>
    have hlast : ∀ x ∈ bs.getLast?, x ∈ (b :: bs).getLast? := by
      intro x hx
      cases bs with
      | nil => simp at hx
      | cons y bs => simpa [List.getLast?_cons] using hx
    cases b with
    | para l =>
      obtain ⟨h1, h2, h3⟩ := hb
      refine ⟨h1, ?_, ih h3 fun b hb' => h b (hlast b hb')⟩
      intro x hx
      cases bs with
      | nil => exact h (.para l) (by simp) trivial x hx
      | cons y bs => exact h2 x (by simpa using hx)
    | brk => exact ih hb fun b hb' => h b (hlast b hb')
    | out i => exact ih hb fun b hb' => h b (hlast b hb')

/-- The invariant: what has been read is the closed blocks and the open paragraph. -/
structure Inv (ts : List Tok) (o sub : List Item) : Prop where
  blocks : ∃ bs : List Block, Maximal bs ∧ (∀ b ∈ bs.getLast?, ¬ b.isPara) ∧ ts = bs.flatMap Block.toks ++ sub.map .leaf ∧
    o = bs.flatMap Block.result

theorem Inv.leaf {ts o sub} (h : Inv ts o sub) (i : Item) : Inv (ts ++ [.leaf i]) o (sub ++ [i]) := by
  obtain ⟨bs, h1, h2, h3, h4⟩ := h.blocks
  exact ⟨bs, h1, h2, by simp [h3], h4⟩

theorem Inv.close {ts o sub} (h : Inv ts o sub) (b : Block) (hb : ¬ b.isPara) (hm : Maximal [b]) :
    Inv (ts ++ b.toks) (close o sub ++ b.result) [] := by
  obtain ⟨bs, h1, h2, h3, h4⟩ := h.blocks
  by_cases hs : sub = []
  · subst hs
    refine ⟨bs ++ [b], maximal_append bs [b] h1 hm fun x hx hp => absurd hp (h2 x hx), ?_, by simp [h3], ?_⟩
    · intro x hx
      simp only [List.getLast?_append, List.getLast?_singleton, Option.some_or, Option.mem_some_iff] at hx
      rw [← hx]; exact hb
    · simp [Para.close, h4]
  · refine ⟨bs ++ [.para sub, b], maximal_append bs _ h1 ⟨hs, ?_, hm⟩ fun x hx hp => absurd hp (h2 x hx), ?_, by simp [h3, Block.toks], ?_⟩
    · intro x hx
      simp only [List.head?_cons, Option.mem_some_iff] at hx
      rw [← hx]; exact hb
    · intro x hx
      simp [List.getLast?_append] at hx
      rw [← hx]; exact hb
    · have : sub.isEmpty = false := by cases sub <;> simp_all
      simp [Para.close, this, h4, Block.result]

theorem addPieces_inv (ps : List Str) (ts : List Tok) (o sub : List Item) (h : Inv ts o sub) :
    Inv (ts ++ pieceToks ps) (addPieces o sub ps).1 (addPieces o sub ps).2 := by
  induction ps generalizing ts o sub with
  | nil => simpa [pieceToks, addPieces] using h
  | cons p ps ih =>
    have hp : Inv (ts ++ if p = [] then [] else [.leaf (.str p)]) o (addPiece sub p) := by
      by_cases hp : p = []
      · subst hp; simpa [addPiece] using h
      · have : p.isEmpty = false := by cases p <;> simp_all
        simp only [if_neg hp, addPiece, this]
        exact h.leaf _
    cases ps with
    | nil => exact hp
    | cons q ps =>
      have := hp.close .brk (by simp [Block.isPara]) trivial
      have := ih _ _ _ this
      simp only [Block.toks, Block.result, List.append_nil] at this
      rw [addPieces, pieceToks]
      · simpa [List.append_assoc] using this
      · simp
      · simp

theorem group_inv (l : List Item) (ts' : List Tok) (h : Toks sp l ts') (ts : List Tok) (st : List Item × List Item)
    (hi : Inv ts st.1 st.2) : Inv (ts ++ ts') (l.foldl (groupStep sp) st).1 (l.foldl (groupStep sp) st).2 := by
  induction h generalizing ts st with
  | nil => simpa using hi
  | cons hi' h ih =>
    rename_i i is t ts'
    rw [List.foldl_cons, ← List.append_assoc]
    apply ih
    cases hi' with
    | str hp => rename_i s ps; rw [groupStep, paraSplit_of_pieces sp s ps hp]; exact addPieces_inv ps ts st.1 st.2 hi
    | incl => exact hi.leaf _
    | excl => exact hi.close (.out _) (by simp [Block.isPara]) trivial
    | list => exact hi.close (.out _) (by simp [Block.isPara]) trivial
    | p => exact hi.close (.out _) (by simp [Block.isPara]) trivial

end Verif.Para
