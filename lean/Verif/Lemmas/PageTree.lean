import Verif.Lemmas.PageTypo

/-!
# Lemmas: trees that are done

A tree is good if parsing it again and processing its typography again change nothing.
-/

namespace Verif.Page

open Verif Verif.Typography Verif.Parser Verif.Parser.Spec

/-- The typography. -/
abbrev set (ch : Chars) : Str → Str := Typography.typo ch.sp ch.word

def isList : Val → Bool
  | .list _ => true
  | _ => false

mutual
/-- Nothing more is to be done in a tree; `Q` holds for the names and texts of verbatim tags. -/
def Good (ch : Chars) (Q : Str → Str → Prop) : Val → Prop
  | .str s => NoTag s ∧ set ch s = s
  | .tag n _ _ c => (kindOf ch.lower n ≠ none ∧ (kindOf ch.lower n = some .symbol → ∃ s, c = .str s)) ∧ c ≠ .list [] ∧
      (raw ch.lower n = true → ∃ s, c = .str s ∧ NoTag s ∧ Q n s) ∧ (raw ch.lower n = false → Good ch Q c)
  | .list l => noAdj l = true ∧ GoodAll ch Q l
def GoodAll (ch : Chars) (Q : Str → Str → Prop) : List Val → Prop
  | [] => True
  | v :: l => (Good ch Q v ∧ isList v = false ∧ v.truthy = true) ∧ GoodAll ch Q l
end

theorem goodAll_iff (ch : Chars) (Q) (l : List Val) :
    GoodAll ch Q l ↔ ∀ v ∈ l, Good ch Q v ∧ isList v = false ∧ v.truthy = true := by
  induction l with
  | nil => simp [GoodAll]
  | cons v l ih => simp only [GoodAll, ih, List.mem_cons, forall_eq_or_imp]

theorem proc_raw (lower : Str → Str) (n : Str) : proc lower n = !raw lower n := by
  unfold proc raw
  by_cases h : kindOf lower n = some .verb <;> simp [h]

theorem truthy_tag (n a b c) (h : c ≠ .list []) : (Val.tag n a b c).truthy = true := by
  cases c with
  | list l => cases l with
    | nil => exact absurd rfl h
    | cons v l => rfl
  | str s => rfl
  | tag => rfl

mutual
theorem setVal_good (ch : Chars) (Q) (v : Val) (h : Good ch Q v) : setVal (set ch) (proc ch.lower) v = v := by
  match v, h with
  | .str s, h => rw [setVal, h.2]
  | .tag n a b c, h =>
    rw [setVal, proc_raw]
    cases hr : raw ch.lower n with
    | true => simp
    | false =>
      have := setVal_good ch Q c (h.2.2.2 hr)
      simp [this]
  | .list l, h => rw [setVal, setVals_good ch Q l h.2]
theorem setVals_good (ch : Chars) (Q) (l : List Val) (h : GoodAll ch Q l) : setVals (set ch) (proc ch.lower) l = l := by
  match l, h with
  | [], _ => rfl
  | v :: l, h => rw [setVals, setVal_good ch Q v h.1.1, setVals_good ch Q l h.2]
end

mutual
/-- How many levels of `parse_tags` a tree needs. -/
def ht : Val → Nat
  | .str _ => 0
  | .tag _ _ _ (.list l) => 1 + hts l
  | .tag _ _ _ c => 1 + ht c
  | .list l => 1 + hts l
def hts : List Val → Nat
  | [] => 0
  | v :: l => max (ht v) (hts l)
end

theorem ht_le_hts (l : List Val) (v : Val) (h : v ∈ l) : ht v ≤ hts l := by
  induction l with
  | nil => simp at h
  | cons w l ih =>
    rw [hts]
    rcases List.mem_cons.1 h with rfl | h
    · omega
    · have := ih h; omega

theorem hts_le (l : List Val) (n : Nat) (h : ∀ v ∈ l, ht v ≤ n) : hts l ≤ n := by
  induction l with
  | nil => simp [hts]
  | cons w l ih =>
    rw [hts]
    have h1 := h w (by simp)
    have h2 := ih fun v hv => h v (by simp [hv])
    omega

/-- The same for the content of a tag. -/
def cht : Val → Nat
  | .list l => hts l
  | v => ht v

theorem ht_tag (n a b c) : ht (.tag n a b c) = 1 + cht c := by
  cases c <;> simp [ht, cht]

mutual
theorem again_good (ch : Chars) (Q) (mk : Str → Except PErr Val) (hmk : ∀ s, NoTag s → mk s = .ok (.str s)) (level : Nat)
    (v : Val) (h : Good ch Q v) (hl : level + ht v < 30) : again mk level v = .ok v := by
  match v, h, hl with
  | .str s, h, hl =>
    simp only [ht] at hl
    rw [again, if_neg (by omega), hmk s h.1]
  | .tag n a b (.list l), h, hl =>
    simp only [ht] at hl
    rw [again, if_neg (by omega)]
    have hg : Good ch Q (.list l) := by
      cases hr : raw ch.lower n with
      | true => obtain ⟨s, hs, _⟩ := h.2.2.1 hr; cases hs
      | false => exact h.2.2.2 hr
    rw [againAll_good ch Q mk hmk (level + 1) l hg.2 (by omega)]
    rfl
  | .tag n a b (.str s), h, hl =>
    simp only [ht] at hl
    have hs : NoTag s := by
      cases hr : raw ch.lower n with
      | true => obtain ⟨t, ht, h1, _⟩ := h.2.2.1 hr; cases ht; exact h1
      | false => exact (h.2.2.2 hr).1
    rw [again, if_neg (by omega), again, if_neg (by omega), hmk s hs]
    · rfl
    · simp
  | .tag n a b (.tag n' a' b' c'), h, hl =>
    rw [ht] at hl
    · rw [again, if_neg (by omega)]
      · have hg : Good ch Q (.tag n' a' b' c') := by
          cases hr : raw ch.lower n with
          | true => obtain ⟨s, hs, _⟩ := h.2.2.1 hr; cases hs
          | false => exact h.2.2.2 hr
        rw [again_good ch Q mk hmk (level + 1) (.tag n' a' b' c') hg (by omega)]
        rfl
      · simp
    · simp
  | .list l, h, hl =>
    simp only [ht] at hl
    rw [again, if_neg (by omega), againAll_good ch Q mk hmk (level + 1) l h.2 (by omega)]
    rfl
theorem againAll_good (ch : Chars) (Q) (mk : Str → Except PErr Val) (hmk : ∀ s, NoTag s → mk s = .ok (.str s)) (level : Nat)
    (l : List Val) (h : GoodAll ch Q l) (hl : level + hts l < 30) : againAll mk level l = .ok l := by
  match l, h, hl with
  | [], _, _ => rfl
  | v :: l, h, hl =>
    simp only [hts] at hl
    rw [againAll, again_good ch Q mk hmk level v h.1.1 (by omega), againAll_good ch Q mk hmk level l h.2 (by omega)]
    rfl
end

mutual
theorem group_good (ch : Chars) (Q) (v : Val) (h : Good ch Q v) : groupStrings v = v := by
  match v, h with
  | .str s, _ => rfl
  | .tag n a b c, h =>
    rw [groupStrings]
    cases hr : raw ch.lower n with
    | true => obtain ⟨s, rfl, _⟩ := h.2.2.1 hr; rfl
    | false => rw [group_good ch Q c (h.2.2.2 hr)]
  | .list l, h => rw [groupStrings, groupItems_good ch Q l h.2, joinAdj_of_noAdj l h.1]
theorem groupItems_good (ch : Chars) (Q) (l : List Val) (h : GoodAll ch Q l) : groupItems l = l := by
  match l, h with
  | [], _ => rfl
  | v :: l, h => rw [groupItems, h.1.2.2, if_pos rfl, group_good ch Q v h.1.1, groupItems_good ch Q l h.2]
end

/-! ### What `parse_tags` makes -/

/-- An item of a content before its typography is processed. -/
def Fresh (ch : Chars) (Q : Str → Str → Prop) : Val → Prop
  | .str s => NoTag s ∧ s ≠ []
  | .tag n a b c => Good ch Q (.tag n a b c)
  | .list _ => False

def FreshAll (ch : Chars) (Q : Str → Str → Prop) (l : List Val) : Prop := noAdj l = true ∧ ∀ v ∈ l, Fresh ch Q v

theorem fresh_tidy (ch : Chars) (Q) (l : List Val) (h : FreshAll ch Q l) : Tidy l := by
  refine ⟨h.1, ?_⟩
  intro v hv
  have := h.2 v hv
  cases v with
  | str s => exact ⟨by simp [Val.truthy, this.2], rfl, by simp⟩
  | tag n a b c => exact ⟨truthy_tag n a b c this.2.1, group_good ch Q _ this, by simp⟩
  | list l => exact this.elim

theorem noAdj_tail (v : Val) (l : List Val) (h : noAdj (v :: l) = true) : noAdj l = true := by
  cases v with
  | str s =>
    cases l with
    | nil => rfl
    | cons w l =>
      cases w with
      | str t => simp [noAdj] at h
      | _ => simpa [noAdj] using h
  | _ => simpa [noAdj] using h

theorem noAdj_setVals (f : Str → Str) (p : Str → Bool) (l : List Val) (h : noAdj l = true) : noAdj (setVals f p l) = true := by
  fun_induction noAdj l with
  | case1 => simp at h
  | case2 v r hne ih =>
    have ih := ih h
    rw [setVals]
    cases v with
    | str s =>
      rw [setVal]
      cases r with
      | nil => rfl
      | cons w r =>
        cases w with
        | str t => exact absurd rfl (hne s t r rfl)
        | tag n a b c =>
          rw [setVals, setVal] at ih ⊢
          cases hq : p n with
          | true => rw [hq, if_pos rfl] at ih; rw [if_pos rfl]; simpa [noAdj] using ih
          | false => rw [hq, if_neg (by simp)] at ih; rw [if_neg (by simp)]; simpa [noAdj] using ih
        | list l => rw [setVals, setVal] at ih ⊢; simpa [noAdj] using ih
    | tag n a b c => rw [setVal]; split <;> simpa [noAdj] using ih
    | list l => rw [setVal]; simpa [noAdj] using ih
  | case3 => rfl

theorem fresh_setVal (ch : Chars) (Q) (hc : Classes ch.sp ch.word) (v : Val) (h : Fresh ch Q v) :
    Good ch Q (setVal (set ch) (proc ch.lower) v) ∧ isList (setVal (set ch) (proc ch.lower) v) = false ∧
      (setVal (set ch) (proc ch.lower) v).truthy = true := by
  cases v with
  | str s =>
    rw [setVal]
    refine ⟨⟨typo_noTag hc s h.1, C45_stable hc s⟩, rfl, ?_⟩
    have := typo_ne_nil hc s h.2
    simpa [Val.truthy] using this
  | tag n a b c =>
    rw [setVal_good ch Q _ h]
    exact ⟨h, rfl, truthy_tag n a b c h.2.1⟩
  | list l => exact h.elim

theorem setVals_map (f : Str → Str) (p : Str → Bool) (l : List Val) : setVals f p l = l.map (setVal f p) := by
  induction l with
  | nil => rfl
  | cons v l ih => rw [setVals, ih]; rfl

theorem fresh_setVals (ch : Chars) (Q) (hc : Classes ch.sp ch.word) (l : List Val) (h : FreshAll ch Q l) :
    noAdj (setVals (set ch) (proc ch.lower) l) = true ∧ GoodAll ch Q (setVals (set ch) (proc ch.lower) l) := by
  refine ⟨noAdj_setVals _ _ l h.1, ?_⟩
  rw [goodAll_iff, setVals_map]
  intro v hv
  obtain ⟨w, hw, rfl⟩ := List.mem_map.1 hv
  exact fresh_setVal ch Q hc w (h.2 w hw)

theorem setVal_simplify (f : Str → Str) (p : Str → Bool) (hf : f [] = []) (l : List Val) :
    setVal f p (simplify l) = simplify (setVals f p l) := by
  match l with
  | [] => simp [simplify, setVal, setVals, hf]
  | [v] => simp [simplify, setVals]
  | v :: w :: l => simp [simplify, setVals, setVal]

theorem simplify_good (ch : Chars) (Q) (l : List Val) (h1 : noAdj l = true) (h2 : GoodAll ch Q l) : Good ch Q (simplify l) := by
  match l, h1, h2 with
  | [], _, _ => exact ⟨NoTag.nil, rfl⟩
  | [v], _, h2 => exact h2.1.1
  | v :: w :: l, h1, h2 => exact ⟨h1, h2⟩

theorem cht_simplify (l : List Val) (h : ∀ v ∈ l, isList v = false) : cht (simplify l) ≤ hts l := by
  match l, h with
  | [], _ => simp [simplify, cht, ht, hts]
  | [v], h =>
    have := h v (by simp)
    cases v with
    | list l => simp [isList] at this
    | str s => simp [simplify, cht, hts, ht]
    | tag n a b c => simp [simplify, cht, hts]
  | v :: w :: l, _ => simp [simplify, cht]

theorem simplify_ne_nil (l : List Val) (h : ∀ v ∈ l, isList v = false) : simplify l ≠ .list [] := by
  match l, h with
  | [], _ => simp [simplify]
  | [v], h =>
    have := h v (by simp)
    cases v with
    | list l => simp [isList] at this
    | str s => simp [simplify]
    | tag n a b c => simp [simplify]
  | v :: w :: l, _ => simp [simplify]

mutual
theorem ht_setVal (f : Str → Str) (p : Str → Bool) (v : Val) : ht (setVal f p v) = ht v := by
  match v with
  | .str s => rfl
  | .tag n a b c =>
    rw [setVal]
    split
    · rw [ht_tag, ht_tag]
      match c with
      | .str s => rfl
      | .tag n' a' b' c' =>
        have := ht_setVal f p (.tag n' a' b' c')
        have h2 : cht (setVal f p (.tag n' a' b' c')) = ht (setVal f p (.tag n' a' b' c')) := by
          rw [setVal]; split <;> rfl
        rw [h2, this]; rfl
      | .list l =>
        have := hts_setVals f p l
        simp only [setVal, cht, this]
    · rfl
  | .list l => have := hts_setVals f p l; simp only [setVal, ht, this]
theorem hts_setVals (f : Str → Str) (p : Str → Bool) (l : List Val) : hts (setVals f p l) = hts l := by
  match l with
  | [] => rfl
  | v :: l => rw [setVals, hts, hts, ht_setVal f p v, hts_setVals f p l]
end

/-! ### What a tree says -/

mutual
/-- The values `g` of the texts of a tree, by the names of the tags around them, apart from paragraphs. -/
def vm {α : Type} (lower : Str → Str) (g : List Str → Str → List α) (path : List Str) : Val → List α
  | .str s => g path s
  | .tag n _ _ c => vm lower g (if lower n = "p".toList then path else path ++ [n]) c
  | .list l => vms lower g path l
def vms {α : Type} (lower : Str → Str) (g : List Str → Str → List α) (path : List Str) : List Val → List α
  | [] => []
  | v :: l => vm lower g path v ++ vms lower g path l
end

theorem vms_flatMap {α : Type} (lower : Str → Str) (g : List Str → Str → List α) (path) (l : List Val) :
    vms lower g path l = l.flatMap (vm lower g path) := by
  induction l with
  | nil => rfl
  | cons v l ih => rw [vms, ih]; rfl

/-- Values that do not depend on spaces. -/
structure Additive {α : Type} (sp : Char → Bool) (g : List Str → Str → List α) : Prop where
  app : ∀ p a b, g p (a ++ b) = g p a ++ g p b
  blank : ∀ p s, (∀ c ∈ s, sp c = true) → g p s = []

theorem vm_simplify {α : Type} (sp) (lower : Str → Str) (g : List Str → Str → List α) (hg : Additive sp g) (path)
    (l : List Val) : vm lower g path (simplify l) = vms lower g path l := by
  match l with
  | [] => simp [simplify, vm, vms, hg.blank path [] (by simp)]
  | [v] => simp [simplify, vms]
  | v :: w :: l => simp [simplify, vm]

end Verif.Page
