import Verif.Lemmas.PageTree
import Verif.Lemmas.Render

/-!
# Lemmas: the paragraphs of trees that are done
-/

namespace Verif.Page

open Verif Verif.Typography Verif.Parser Verif.Parser.Spec

namespace Grouping

open Verif.Para

/-- No strings side by side. -/
def Sep (l : List Item) : Prop := ∀ x y, ¬ [Item.str x, .str y] <:+: l

theorem Sep.nil : Sep [] := by
  intro x y h
  have := h.length_le
  simp at this

theorem Sep.snoc {sub : List Item} (h : Sep sub) (x : Item) (hx : ∀ s t, sub.getLast? = some (.str s) → x ≠ .str t) :
    Sep (sub ++ [x]) := by
  rintro a b ⟨u, v, e⟩
  rcases List.eq_nil_or_concat v with rfl | ⟨v', z, rfl⟩
  · simp only [List.append_nil] at e
    have e' : (u ++ [Item.str a]) ++ [Item.str b] = sub ++ [x] := by rw [← e]; simp
    obtain ⟨h1, h2⟩ := List.append_inj' e' rfl
    simp only [List.cons.injEq, and_true] at h2
    exact hx a b (by rw [← h1]; simp) h2.symm
  · have e' : (u ++ [Item.str a, .str b] ++ v') ++ [z] = sub ++ [x] := by rw [← e]; simp
    obtain ⟨h1, _⟩ := List.append_inj' e' rfl
    exact h a b ⟨u, v', h1⟩

theorem Sep.tail {x : Item} {l : List Item} (h : Sep (x :: l)) : Sep l := fun a b hi => h a b (hi.trans (List.suffix_cons x l).isInfix)

theorem Sep.head {s t : Str} {l : List Item} (h : Sep (.str s :: l)) : l.head? ≠ some (.str t) := by
  intro he
  cases l with
  | nil => simp at he
  | cons y l =>
    simp only [List.head?_cons, Option.some.injEq] at he
    subst he
    exact h s t ⟨[], l, rfl⟩

section

variable (sp : Char → Bool) (PS : Str → Prop) (PO : Nat → Prop)

def Elem (x : Item) : Prop := (∃ s, x = .str s ∧ PS s) ∨ ∃ i b t, x = .obj i b t ∧ PO i
def Leaf (x : Item) : Prop := (∃ s, x = .str s ∧ s ≠ [] ∧ PS s) ∨ ∃ i b t, x = .obj i b t ∧ PO i
def Out (x : Item) : Prop :=
  (∃ i t, x = .obj i false t ∧ PO i) ∨ ∃ sub, x = .list sub ∧ sub ≠ [] ∧ (∀ y ∈ sub, Leaf PS PO y) ∧ Sep sub

/-- Values of items that do not depend on spaces. -/
structure Sum {α : Type} (F : Item → List α) : Prop where
  list : ∀ l, F (.list l) = l.flatMap F
  app : ∀ a b, F (.str (a ++ b)) = F (.str a) ++ F (.str b)
  blank : ∀ s, (∀ c ∈ s, sp c = true) → F (.str s) = []

structure State {α : Type} (F : Item → List α) (o sub : List Item) (v : List α) : Prop where
  out : ∀ x ∈ o, Out PS PO x
  leaf : ∀ x ∈ sub, Leaf PS PO x
  sep : Sep sub
  sum : (o ++ sub).flatMap F = v

variable {sp PS PO} {α : Type} {F : Item → List α}

theorem State.close {o sub v} (hF : Sum sp F) (h : State PS PO F o sub v) : State PS PO F (close o sub) [] v := by
  unfold Para.close
  cases hs : sub.isEmpty with
  | true =>
    rw [List.isEmpty_iff] at hs
    subst hs
    rw [if_pos rfl]
    exact h
  | false =>
    rw [if_neg (by simp)]
    refine ⟨?_, by simp, Sep.nil, ?_⟩
    · intro x hx
      rcases List.mem_append.1 hx with hx | hx
      · exact h.out x hx
      · simp only [List.mem_singleton] at hx
        subst hx
        exact .inr ⟨sub, rfl, by rintro rfl; simp at hs, h.leaf, h.sep⟩
    · rw [← h.sum]
      simp [hF.list]

theorem State.snoc {o sub v} (h : State PS PO F o sub v) (x : Item) (hx : Leaf PS PO x)
    (hs : ∀ s t, sub.getLast? = some (.str s) → x ≠ .str t) : State PS PO F o (sub ++ [x]) (v ++ F x) := by
  refine ⟨h.out, ?_, h.sep.snoc x hs, ?_⟩
  · intro y hy
    rcases List.mem_append.1 hy with hy | hy
    · exact h.leaf y hy
    · simp only [List.mem_singleton] at hy; subst hy; exact hx
  · rw [← h.sum]; simp

theorem State.piece {o sub v} (hF : Sum sp F) (h : State PS PO F o sub v) (p : Str) (hp : PS p)
    (hs : ∀ s, sub.getLast? ≠ some (.str s)) : State PS PO F o (addPiece sub p) (v ++ F (.str p)) := by
  unfold addPiece
  cases he : p.isEmpty with
  | true =>
    rw [List.isEmpty_iff] at he
    subst he
    rw [if_pos rfl, hF.blank [] (by simp), List.append_nil]
    exact h
  | false =>
    rw [if_neg (by simp)]
    exact h.snoc _ (.inl ⟨p, rfl, by rintro rfl; simp at he, hp⟩) (fun s _ h => absurd h (hs s))

theorem pieces_ne_nil {s ps} (h : Pieces sp s ps) : ps ≠ [] := by cases h <;> simp

theorem State.pieces (hF : Sum sp F) {s : Str} {ps : List Str} (hps : Pieces sp s ps) (hp : ∀ p ∈ ps, PS p) {o sub v}
    (h : State PS PO F o sub v) (hs : ∀ s, sub.getLast? ≠ some (.str s)) :
    State PS PO F (addPieces o sub ps).1 (addPieces o sub ps).2 (v ++ F (.str s)) := by
  induction hps generalizing o sub v with
  | last _ =>
    simp only [addPieces]
    exact h.piece hF _ (hp _ (by simp)) hs
  | cons _ _ hw _ h' ih =>
    rename_i p w r ps _ _ _
    cases ps with
    | nil => exact absurd rfl (pieces_ne_nil h')
    | cons q qs =>
      simp only [addPieces]
      have h1 := (h.piece hF p (hp _ (by simp)) hs).close hF
      have h2 := ih (fun x hx => hp x (List.mem_cons_of_mem _ hx)) h1 (by simp)
      rw [hF.app, hF.app, hF.blank w hw.1, List.append_nil, ← List.append_assoc]
      exact h2

theorem fold_state (hF : Sum sp F) (hP : ∀ s ps, PS s → Pieces sp s ps → ∀ p ∈ ps, PS p) (els : List Item) {o sub v}
    (hel : ∀ x ∈ els, Elem PS PO x) (hsep : Sep els) (hadj : ∀ s t, sub.getLast? = some (.str s) → els.head? ≠ some (.str t))
    (h : State PS PO F o sub v) :
    State PS PO F (els.foldl (groupStep sp) (o, sub)).1 (els.foldl (groupStep sp) (o, sub)).2 (v ++ els.flatMap F) := by
  induction els generalizing o sub v with
  | nil => simpa using h
  | cons x els ih =>
    rw [List.foldl_cons, List.flatMap_cons, ← List.append_assoc]
    rcases hel x (by simp) with ⟨s, rfl, hs⟩ | ⟨i, b, t, rfl, hi⟩
    · obtain ⟨ps, hps⟩ := Para.pieces_exist (sp := sp) _ s (Nat.le_refl _)
      have h1 := h.pieces hF hps (hP s ps hs hps) (fun s' he => hadj s' s he rfl)
      rw [groupStep, Para.paraSplit_of_pieces _ s ps hps]
      exact ih (fun y hy => hel y (by simp [hy])) hsep.tail (fun _ _ _ => hsep.head) h1
    · cases b with
      | true =>
        rw [groupStep]
        refine ih (fun y hy => hel y (by simp [hy])) hsep.tail ?_ (h.snoc _ (.inr ⟨i, true, t, rfl, hi⟩) (by simp))
        intro s t he
        simp at he
      | false =>
        rw [groupStep]
        have h1 := h.close hF
        refine ih (fun y hy => hel y (by simp [hy])) hsep.tail (by simp) ⟨?_, by simp, Sep.nil, ?_⟩
        · intro y hy
          rcases List.mem_append.1 hy with hy | hy
          · exact h1.out y hy
          · simp only [List.mem_singleton] at hy; subst hy; exact .inl ⟨i, t, rfl, hi⟩
        · have := h1.sum
          simp only [List.append_nil] at this ⊢
          rw [List.flatMap_append, this]
          simp

theorem group_out (hF : Sum sp F) (hP : ∀ s ps, PS s → Pieces sp s ps → ∀ p ∈ ps, PS p) (els : List Item)
    (hel : ∀ x ∈ els, Elem PS PO x) (hsep : Sep els) :
    (∀ x ∈ group sp els, Out PS PO x) ∧ (group sp els).flatMap F = els.flatMap F := by
  have h := (fold_state hF hP els (o := []) (sub := []) (v := []) hel hsep (by simp)
    ⟨by simp, by simp, Sep.nil, by simp⟩).close hF
  refine ⟨h.out, ?_⟩
  have := h.sum
  simp only [List.append_nil, List.nil_append] at this
  exact this

theorem blank_str (s : Str) (h : (strip sp s).isEmpty = true) : ∀ c ∈ s, sp c = true := by
  rw [List.isEmpty_iff] at h
  obtain ⟨a, b, e, ha, hb, _⟩ := Render.strip_trimmed sp s
  rw [h, List.append_nil] at e
  rw [e]
  intro c hc
  rcases List.mem_append.1 hc with hc | hc
  · exact ha c hc
  · exact hb c hc

theorem clean_out (hF : Sum sp F) (els : List Item) :
    (∀ x ∈ clean sp els, x ∈ els) ∧ (clean sp els).flatMap F = els.flatMap F := by
  refine ⟨fun x hx => (List.mem_filter.1 hx).1, ?_⟩
  unfold clean
  induction els with
  | nil => rfl
  | cons x els ih =>
    rw [List.filter_cons]
    cases x with
    | list l =>
      cases hb : l.all (blankStr sp) with
      | false => rw [if_pos (by show (!l.all (blankStr sp)) = true; rw [hb]; rfl), List.flatMap_cons, List.flatMap_cons, ih]
      | true =>
        rw [if_neg (by show ¬ (!l.all (blankStr sp)) = true; rw [hb]; simp), List.flatMap_cons, ih]
        have : F (.list l) = [] := by
          rw [hF.list, List.flatMap_eq_nil_iff]
          intro y hy
          have := List.all_eq_true.1 hb y hy
          cases y with
          | str s => exact hF.blank s (blank_str s this)
          | _ => simp [blankStr] at this
        rw [this, List.nil_append]
    | _ => simp [ih]

end

end Grouping

open Grouping

variable {ch : Chars} {Q : Str → Str → Prop}

/-- A text that is done. -/
def Done (ch : Chars) (s : Str) : Prop := NoTag s ∧ set ch s = s

theorem done_pieces (hc : Classes ch.sp ch.word) (s : Str) (ps : List Str) (h : Done ch s) (hp : Para.Pieces ch.sp s ps) :
    ∀ p ∈ ps, Done ch p :=
  fun p hm => ⟨noTag_infix s p h.1 (pieces_infix s ps hp p hm), pieces_typo hc s ps hp h.2 p hm⟩

/-- A position of a tag that is done. -/
def Pos (ch : Chars) (Q : Str → Str → Prop) (H : Nat) (vals : List Val) (i : Nat) : Prop :=
  ∃ n a b c, vals.getD i (.str []) = .tag n a b c ∧ Good ch Q (.tag n a b c) ∧ ht (.tag n a b c) ≤ H

theorem fromItems_map (vals : List Val) (l : List Para.Item) : fromItems vals l = l.map (fromItem vals) := by
  induction l with
  | nil => rfl
  | cons x l ih => rw [fromItems, ih]; rfl

theorem leaf_good {H vals x} (h : Leaf (Done ch) (Pos ch Q H vals) x) :
    Good ch Q (fromItem vals x) ∧ isList (fromItem vals x) = false ∧ (fromItem vals x).truthy = true ∧
      ht (fromItem vals x) ≤ H := by
  rcases h with ⟨s, rfl, hs, hd⟩ | ⟨i, b, t, rfl, n, a, b, c, e, hg, hh⟩
  · exact ⟨hd, rfl, by simpa [fromItem, Val.truthy] using hs, by simp [fromItem, ht]⟩
  · simp only [fromItem]
    rw [e]
    exact ⟨hg, rfl, truthy_tag n a b c hg.2.1, hh⟩

theorem sep_noAdj {H vals sub} (h : ∀ x ∈ sub, Leaf (Done ch) (Pos ch Q H vals) x) (hs : Sep sub) :
    noAdj (sub.map (fromItem vals)) = true := by
  induction sub with
  | nil => rfl
  | cons x sub ih =>
    have ih := ih (fun y hy => h y (by simp [hy])) hs.tail
    rw [List.map_cons]
    rcases h x (by simp) with ⟨s, rfl, _⟩ | ⟨i, b, t, rfl, n, a, b, c, e, _⟩
    · cases sub with
      | nil => rfl
      | cons y sub =>
        rcases h y (by simp) with ⟨t, rfl, _⟩ | ⟨i, b, t, rfl, n, a, b, c, e, _⟩
        · exact absurd rfl (hs.head (t := t))
        · rw [List.map_cons] at ih ⊢
          simp only [fromItem] at ih ⊢
          rw [e] at ih ⊢
          simpa [noAdj] using ih
    · simp only [fromItem]
      rw [e]
      simpa [noAdj] using ih

/-- The content of a paragraph. -/
theorem para_good {H vals sub} (h : ∀ x ∈ sub, Leaf (Done ch) (Pos ch Q H vals) x) (hs : Sep sub) (hn : sub ≠ []) :
    Good ch Q (fromItem vals (Para.unwrap1 sub)) ∧ fromItem vals (Para.unwrap1 sub) ≠ .list [] ∧
      cht (fromItem vals (Para.unwrap1 sub)) ≤ H ∧ ht (fromItem vals (Para.unwrap1 sub)) ≤ H + 1 := by
  match sub, hn with
  | [x], _ =>
    obtain ⟨h1, h2, h3, h4⟩ := leaf_good (h x (by simp))
    simp only [Para.unwrap1]
    refine ⟨h1, ?_, ?_, by omega⟩
    · intro e; rw [e] at h2; simp [isList] at h2
    · cases hx : fromItem vals x with
      | list l => rw [hx] at h2; simp [isList] at h2
      | str s => simp [cht, ht]
      | tag n a b c => rw [hx] at h4; simpa [cht] using h4
  | x :: y :: l, _ =>
    simp only [Para.unwrap1, fromItem]
    rw [fromItems_map]
    have hH : hts ((x :: y :: l).map (fromItem vals)) ≤ H := by
      apply hts_le
      intro v hv
      obtain ⟨w, hw, rfl⟩ := List.mem_map.1 hv
      exact (leaf_good (h w hw)).2.2.2
    refine ⟨⟨sep_noAdj h hs, ?_⟩, by simp, hH, by simp only [ht]; omega⟩
    rw [goodAll_iff]
    intro v hv
    obtain ⟨w, hw, rfl⟩ := List.mem_map.1 hv
    obtain ⟨h1, h2, h3, _⟩ := leaf_good (h w hw)
    exact ⟨h1, h2, h3⟩

theorem kind_p (hp : ch.lower "p".toList = "p".toList) : kindOf ch.lower "p".toList = some .p := by
  unfold kindOf
  rw [hp]
  rfl

/-- The values of items. -/
def fm {α : Type} (lower : Str → Str) (g : List Str → Str → List α) (path : List Str) (vals : List Val) (x : Para.Item) : List α :=
  vm lower g path (fromItem vals x)

theorem fm_sum {α : Type} (lower : Str → Str) (g : List Str → Str → List α) (hg : Additive ch.sp g) (path vals) :
    Sum ch.sp (fm lower g path vals) := by
  refine ⟨?_, ?_, ?_⟩
  · intro l
    unfold fm
    rw [fromItem, vm, vms_flatMap, fromItems_map, List.flatMap_map]
  · intro a b; simp only [fm, fromItem, vm]; exact hg.app path a b
  · intro s hs; simp only [fm, fromItem, vm]; exact hg.blank path s hs

theorem makeP_out {H vals x} (hp : ch.lower "p".toList = "p".toList) (mk) (hmk : ∀ s, NoTag s → mk s = .ok (.str s))
    (hH : H + 2 < 30) (h : Out (Done ch) (Pos ch Q H vals) x) :
    ∃ w, makeP ch mk vals (Para.toP x) = .ok w ∧ Good ch Q w ∧ isList w = false ∧ (∃ n a b c, w = .tag n a b c) ∧ ht w ≤ H + 1 ∧
      ∀ (α : Type) (g : List Str → Str → List α) path, vm ch.lower g path w = fm ch.lower g path vals x := by
  rcases h with ⟨i, t, rfl, n, a, b, c, e, hg, hh⟩ | ⟨sub, rfl, hn, hl, hs⟩
  · refine ⟨.tag n a b c, ?_, hg, rfl, ⟨n, a, b, c, rfl⟩, by omega, ?_⟩
    · simp only [Para.toP, makeP, fromItem]; rw [e]
    · intro α g path; simp only [fm, fromItem]; rw [e]
  · obtain ⟨h1, h2, h3, h4⟩ := para_good hl hs hn
    refine ⟨.tag "p".toList none true (fromItem vals (Para.unwrap1 sub)), ?_, ?_, rfl, ⟨_, _, _, _, rfl⟩, ?_, ?_⟩
    · simp only [Para.toP, makeP]
      rw [again_good ch Q mk hmk 1 _ h1 (by omega)]
      have := setVal_good ch Q _ h1
      show Except.ok (Val.tag _ _ _ (setVal (set ch) (proc ch.lower) _)) = _
      rw [this]
    · have hk := kind_p hp
      have hr : raw ch.lower "p".toList = false := by unfold raw; rw [hk]; rfl
      refine ⟨⟨by rw [hk]; simp, by rw [hk]; simp⟩, h2, ?_, fun _ => h1⟩
      intro h; rw [hr] at h; exact absurd h (by simp)
    · rw [ht_tag]; omega
    · intro α g path
      rw [vm, if_pos hp]
      unfold fm
      match sub, hn with
      | [x], _ => simp [Para.unwrap1, fromItem, fromItems, vm, vms]
      | x :: y :: l, _ => simp [Para.unwrap1]

theorem makePs_out {H vals} (hp : ch.lower "p".toList = "p".toList) (mk) (hmk : ∀ s, NoTag s → mk s = .ok (.str s))
    (hH : H + 2 < 30) (l : List Para.Item) (h : ∀ x ∈ l, Out (Done ch) (Pos ch Q H vals) x) :
    ∃ ws, makePs ch mk vals (l.map Para.toP) = .ok ws ∧ ws.length = l.length ∧ (∀ w ∈ ws, Good ch Q w ∧ isList w = false ∧
        (∃ n a b c, w = .tag n a b c) ∧ ht w ≤ H + 1) ∧
      ∀ (α : Type) (g : List Str → Str → List α) path, vms ch.lower g path ws = l.flatMap (fm ch.lower g path vals) := by
  induction l with
  | nil => exact ⟨[], rfl, rfl, by simp, by intros; rfl⟩
  | cons x l ih =>
    obtain ⟨ws, h1, h2, h3, h4⟩ := ih fun y hy => h y (by simp [hy])
    obtain ⟨w, k1, k2, k3, k4, k5, k6⟩ := makeP_out hp mk hmk hH (h x (by simp))
    refine ⟨w :: ws, ?_, by simp [h2], ?_, ?_⟩
    · rw [List.map_cons, makePs, k1, h1]; rfl
    · intro v hv
      rcases List.mem_cons.1 hv with rfl | hv
      · exact ⟨k2, k3, k4, k5⟩
      · exact h3 v hv
    · intro α g path; rw [vms, k6, h4]; rfl

theorem noAdj_tags (l : List Val) (h : ∀ w ∈ l, ∃ n a b c, w = .tag n a b c) : noAdj l = true := by
  induction l with
  | nil => rfl
  | cons w l ih =>
    obtain ⟨n, a, b, c, rfl⟩ := h w (by simp)
    have := ih fun v hv => h v (by simp [hv])
    simpa [noAdj] using this

/-- Something in the items is not blank. -/
def Filled (sp : Char → Bool) (l : List Para.Item) : Prop :=
  ∃ x ∈ l, (∃ i b t, x = Para.Item.obj i b t) ∨ ∃ s, x = .str s ∧ Solid sp s

mutual
/-- A mark for each character that is not a space, and for each object. -/
def count (sp : Char → Bool) : Para.Item → List Unit
  | .str s => (s.filter (!sp ·)).map fun _ => ()
  | .obj .. => [()]
  | .list l => counts sp l
  | .p c => count sp c
def counts (sp : Char → Bool) : List Para.Item → List Unit
  | [] => []
  | x :: l => count sp x ++ counts sp l
end

theorem counts_flatMap (sp) (l : List Para.Item) : counts sp l = l.flatMap (count sp) := by
  induction l with
  | nil => rfl
  | cons x l ih => rw [counts, ih]; rfl

theorem count_sum (sp) : Sum sp (count sp) := by
  refine ⟨fun l => by rw [count, counts_flatMap], fun a b => by simp [count], ?_⟩
  intro s hs
  simp only [count, List.map_eq_nil_iff, List.filter_eq_nil_iff]
  intro c hc
  simp [hs c hc]

theorem filled_count (sp) (l : List Para.Item) (h : Filled sp l) : l.flatMap (count sp) ≠ [] := by
  obtain ⟨x, hx, h⟩ := h
  intro he
  have := List.flatMap_eq_nil_iff.1 he x hx
  rcases h with ⟨i, b, t, rfl⟩ | ⟨s, rfl, c, hc, hs⟩
  · simp [count] at this
  · simp only [count, List.map_eq_nil_iff, List.filter_eq_nil_iff] at this
    exact absurd hs (by simpa using this c hc)

/-- The paragraphs of items. -/
theorem build_process {H vals} (hc : Classes ch.sp ch.word) (hp : ch.lower "p".toList = "p".toList) (mk)
    (hmk : ∀ s, NoTag s → mk s = .ok (.str s)) (hH : H + 2 < 30) (els : List Para.Item)
    (hel : ∀ x ∈ els, Elem (Done ch) (Pos ch Q H vals) x) (hsep : Sep els) :
    ∃ v, build ch mk vals (Para.unwrap1 ((Para.clean ch.sp (Para.group ch.sp els)).map Para.toP)) = .ok v ∧
      Good ch Q v ∧ cht v ≤ H + 1 ∧ (Filled ch.sp els → v ≠ .list []) ∧
      ∀ (α : Type) (g : List Str → Str → List α), Additive ch.sp g → ∀ path,
        vm ch.lower g path v = els.flatMap (fm ch.lower g path vals) := by
  have hout : ∀ x ∈ Para.clean ch.sp (Para.group ch.sp els), Out (Done ch) (Pos ch Q H vals) x := by
    intro x hx
    exact (group_out (count_sum ch.sp) (done_pieces hc) els hel hsep).1 x ((clean_out (count_sum ch.sp) _).1 x hx)
  have hsum : ∀ {α : Type} (F : Para.Item → List α), Sum ch.sp F →
      (Para.clean ch.sp (Para.group ch.sp els)).flatMap F = els.flatMap F := by
    intro α F hF
    rw [(clean_out hF _).2, (group_out hF (done_pieces hc) els hel hsep).2]
  have hne : Filled ch.sp els → Para.clean ch.sp (Para.group ch.sp els) ≠ [] := by
    intro hf he
    have := hsum _ (count_sum ch.sp)
    rw [he] at this
    exact filled_count ch.sp els hf this.symm
  have hvm : ∀ (α : Type) (g : List Str → Str → List α), Additive ch.sp g → ∀ path,
      (Para.clean ch.sp (Para.group ch.sp els)).flatMap (fm ch.lower g path vals) = els.flatMap (fm ch.lower g path vals) :=
    fun α g hg path => hsum _ (fm_sum ch.lower g hg path vals)
  obtain ⟨ws, h1, h2, h3, h4⟩ := makePs_out hp mk hmk hH _ hout
  revert hout hne hvm h1 h2 h3 h4
  generalize Para.clean ch.sp (Para.group ch.sp els) = r
  intro hout hne hvm h1 h2 h3 h4
  match r, ws with
  | [], [] =>
    exact ⟨.list [], rfl, ⟨rfl, trivial⟩, by simp [cht, hts], fun hf => absurd rfl (hne hf),
      fun α g hg path => by rw [← hvm α g hg path]; rfl⟩
  | [x], [w] =>
    obtain ⟨k1, k2, ⟨n, a, b, c, rfl⟩, k4⟩ := h3 w (by simp)
    refine ⟨_, ?_, k1, by simpa [cht] using k4, fun _ => by simp, ?_⟩
    · rcases hout x (by simp) with ⟨i, t, rfl, _⟩ | ⟨sub, rfl, _⟩ <;>
      · simp only [List.map_cons, List.map_nil, Para.toP, Para.unwrap1, build] at h1 ⊢
        simp only [makePs] at h1
        revert h1
        generalize makeP ch mk vals _ = m
        intro h1
        cases m with
        | error e => cases h1
        | ok v => cases h1; rfl
    · intro α g hg path
      rw [← hvm α g hg path, ← h4]
      simp [vms]
  | x :: y :: l, w :: w' :: ws =>
    refine ⟨.list (w :: w' :: ws), ?_, ⟨noAdj_tags _ fun v hv => (h3 v hv).2.2.1, ?_⟩, ?_, fun _ => by simp, ?_⟩
    · simp only [List.map_cons, Para.unwrap1, build] at h1 ⊢
      rw [h1]; rfl
    · rw [goodAll_iff]
      intro v hv
      obtain ⟨k1, k2, ⟨n, a, b, c, rfl⟩, _⟩ := h3 v hv
      exact ⟨k1, k2, truthy_tag n a b c k1.2.1⟩
    · exact hts_le _ _ fun v hv => (h3 v hv).2.2.2
    · intro α g hg path
      rw [← hvm α g hg path, ← h4]
      rfl
  | [], w :: ws => simp at h2
  | x :: l, [] => simp at h2
  | [x], w :: w' :: ws => simp at h2
  | x :: y :: l, [w] => simp at h2

theorem toItems_spec (inc : Str → Bool) (pre l : List Val) (h : GoodAll ch Q l) (H : Nat) (hH : hts l ≤ H) :
    (toItems inc pre.length l).map (fromItem (pre ++ l)) = l ∧
    (∀ x ∈ toItems inc pre.length l, Elem (Done ch) (Pos ch Q H (pre ++ l)) x) ∧
    (noAdj l = true → Sep (toItems inc pre.length l)) ∧
    (∀ s, (toItems inc pre.length l).head? = some (.str s) → l.head? = some (.str s)) := by
  induction l generalizing pre with
  | nil => exact ⟨rfl, by simp [toItems], fun _ => Sep.nil, by simp [toItems]⟩
  | cons v l ih =>
    have hlen : (pre ++ [v]).length = pre.length + 1 := by simp
    have happ : pre ++ [v] ++ l = pre ++ v :: l := by simp
    simp only [hts] at hH
    obtain ⟨i1, i2, i3, i4⟩ := ih (pre ++ [v]) h.2 (by omega)
    rw [hlen, happ] at i1 i2
    rw [hlen] at i3 i4
    have hget : (pre ++ v :: l).getD pre.length (.str []) = v := by simp
    cases v with
    | str s =>
      simp only [toItems]
      refine ⟨by rw [List.map_cons, i1]; rfl, ?_, ?_, by simp⟩
      · intro x hx
        rcases List.mem_cons.1 hx with rfl | hx
        · exact .inl ⟨s, rfl, h.1.1⟩
        · exact i2 x hx
      · intro hn a b hi
        rcases List.infix_cons_iff.1 hi with hi | hi
        · obtain ⟨r, hr⟩ := hi
          simp only [List.cons_append, List.nil_append, List.cons.injEq] at hr
          have := i4 b (by rw [← hr.2]; rfl)
          cases l with
          | nil => simp at this
          | cons w l =>
            simp only [List.head?_cons, Option.some.injEq] at this
            subst this
            simp [noAdj] at hn
        · exact i3 (noAdj_tail _ _ hn) a b hi
    | tag n a b c =>
      simp only [toItems]
      refine ⟨?_, ?_, ?_, by simp⟩
      · rw [List.map_cons, i1, fromItem, hget]
      · intro x hx
        rcases List.mem_cons.1 hx with rfl | hx
        · exact .inr ⟨_, _, _, rfl, n, a, b, c, hget, h.1.1, by omega⟩
        · exact i2 x hx
      · intro hn a b hi
        rcases List.infix_cons_iff.1 hi with hi | hi
        · obtain ⟨r, hr⟩ := hi
          simp at hr
        · exact i3 (noAdj_tail _ _ hn) a b hi
    | list l' => simp [GoodAll, isList] at h

/-- Something in a content is not blank. -/
def FilledVal (sp : Char → Bool) : Val → Prop
  | .str s => Solid sp s
  | .tag .. => True
  | .list l => ∃ v ∈ l, (∃ n a b c, v = Val.tag n a b c) ∨ ∃ s, v = .str s ∧ Solid sp s

theorem toItems_filled (sp) (inc : Str → Bool) (i : Nat) (l : List Val)
    (h : ∃ v ∈ l, (∃ n a b c, v = Val.tag n a b c) ∨ ∃ s, v = .str s ∧ Solid sp s) : Filled sp (toItems inc i l) := by
  induction l generalizing i with
  | nil => obtain ⟨v, hv, _⟩ := h; simp at hv
  | cons w l ih =>
    obtain ⟨v, hv, h⟩ := h
    rcases List.mem_cons.1 hv with rfl | hv
    · rcases h with ⟨n, a, b, c, rfl⟩ | ⟨s, rfl, hs⟩
      · exact ⟨_, List.mem_cons_self .., .inl ⟨i, inc n, true, rfl⟩⟩
      · exact ⟨_, List.mem_cons_self .., .inr ⟨s, rfl, hs⟩⟩
    · obtain ⟨x, hx, hf⟩ := ih (i + 1) ⟨v, hv, h⟩
      refine ⟨x, ?_, hf⟩
      cases w <;> simp [toItems, hx]

/-- The paragraphs of a content that is done. -/
theorem paragraphs_good (hc : Classes ch.sp ch.word) (hp : ch.lower "p".toList = "p".toList) (mk)
    (hmk : ∀ s, NoTag s → mk s = .ok (.str s)) (v : Val) (h : Good ch Q v) (hn : v ≠ .list []) (hH : cht v + 2 < 30) :
    ∃ w, paragraphs ch mk v = .ok w ∧ Good ch Q w ∧ cht w ≤ cht v + 1 ∧ (FilledVal ch.sp v → w ≠ .list []) ∧
      ∀ (α : Type) (g : List Str → Str → List α), Additive ch.sp g → ∀ path,
        vm ch.lower g path w = vm ch.lower g path v := by
  cases v with
  | tag n a b c => exact ⟨_, rfl, h, by omega, fun _ => by simp, fun _ _ _ _ => rfl⟩
  | str s =>
    obtain ⟨w, h1, h2, h3, h4, h5⟩ := build_process (Q := Q) (H := 0) (vals := []) hc hp mk hmk (by omega) [.str s]
      (by intro x hx; simp only [List.mem_singleton] at hx; subst hx; exact .inl ⟨s, rfl, h⟩)
      (by intro a b hi; have := hi.length_le; simp at this)
    refine ⟨w, h1, h2, by omega, ?_, ?_⟩
    · intro hf; exact h4 ⟨_, List.mem_singleton.2 rfl, .inr ⟨s, rfl, hf⟩⟩
    · intro α g hg path
      rw [h5 α g hg path]
      simp [fm, fromItem]
  | list l =>
    simp only [cht] at hH
    obtain ⟨k1, k2, k3, k4⟩ := toItems_spec (incl ch.lower) [] l h.2 (hts l) (Nat.le_refl _)
    simp only [List.length_nil, List.nil_append] at k1 k2 k3 k4
    obtain ⟨w, h1, h2, h3, h4, h5⟩ := build_process (Q := Q) (H := hts l) (vals := l) hc hp mk hmk (by omega) _ k2 (k3 h.1)
    refine ⟨w, h1, h2, h3, ?_, ?_⟩
    · intro hf; exact h4 (toItems_filled _ _ _ _ hf)
    · intro α g hg path
      rw [h5 α g hg path, vm, vms_flatMap]
      conv => rhs; rw [← k1]
      rw [List.flatMap_map]
      rfl

end Verif.Page
