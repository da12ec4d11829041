import Verif.Lemmas.Composite
import Verif.Lemmas.Media
import Verif.Props.Attributes
import Verif.Props.Text

/-!
# Lemmas for captions, tables, lists and panels in html, and for their texts
-/

set_option linter.unusedSimpArgs false
set_option linter.unusedVariables false

namespace Verif.Composite

open Verif Verif.Attrs Verif.Attrs.Spec Verif.Formats Verif.Render Verif.Render.Spec Verif.Composite.Spec Verif.Parser.Spec

/-! ### Html -/

theorem wrap_eq (sp : Char → Bool) (lower : Str → Str) (name : Str) (d : ADict) (c : Node) (hl : lower name = name) :
    htmlFmt sp lower (.tag .generic name d c) = (wrapHtml sp lower name d c).map fun h => [.elem (some h)] := by
  simp only [htmlFmt]
  have h1 : htmlLeaf sp .generic d c = none := rfl
  have h2 : htmlAttrs .generic d = .ok d := rfl
  have h3 : htmlName lower .generic name = lower name := rfl
  rw [h1, h2, h3, hl]
  simp only []
  unfold wrapHtml
  cases htmlFmt sp lower c <;> rfl

theorem wrap_shown (sp : Char → Bool) (lower : Str → Str) (name : Str) (d : ADict) (c : Node) (h : Html) (hl : lower name = name)
    (hw : wrapHtml sp lower name d c = .ok h) : Shown sp lower (.tag .generic name d c) [h] := by
  refine shown sp lower _ [.elem (some h)] [h] ?_ (toKids_elem h)
  rw [wrap_eq sp lower name d c hl, hw]
  rfl

theorem wrap_renders (sp : Char → Bool) (lower : Str → Str) (name : Str) (d : ADict) (c : Node) (hl : lower name = name) :
    (∃ h, wrapHtml sp lower name d c = .ok h) ↔
      Flat [.supsub, .symbol] none (.tag .generic name d c) ∧ AttrsFine lower (.tag .generic name d c) := by
  constructor
  · rintro ⟨h, hw⟩
    exact ok_fine sp lower _ [.elem (some h)] [h] (by rw [wrap_eq sp lower name d c hl, hw]; rfl) (toKids_elem h)
  · rintro ⟨h1, h2⟩
    obtain ⟨parts, kids, h3, h4⟩ := fine_ok sp lower _ h1 h2
    rw [wrap_eq sp lower name d c hl] at h3
    obtain ⟨h, hh, _⟩ := map_ok h3
    exact ⟨h, hh⟩

theorem htmlItems_cons (sp : Char → Bool) (lower : Str → Str) (n : Node) (l : List Node) (hn : ¬ IsList n) :
    htmlItems sp lower (n :: l) = (htmlFmt sp lower n).bind fun ps => (htmlItems sp lower l).map (ps ++ ·) := by
  cases n with
  | list l' => exact absurd ⟨l', rfl⟩ hn
  | str s => simp only [htmlItems, htmlFmt, Except.bind]; rfl
  | tag k nm d c => rw [htmlItems]; cases htmlFmt sp lower (.tag k nm d c) <;> rfl
  | eq b nm d col c html => rw [htmlItems]; cases htmlFmt sp lower (.eq b nm d col c html) <;> rfl
  | other ts tx html => rw [htmlItems]; cases htmlFmt sp lower (.other ts tx html) <;> rfl

theorem htmlItems_append (sp : Char → Bool) (lower : Str → Str) (a b : List Node) (ha : ∀ n ∈ a, ¬ IsList n) :
    htmlItems sp lower (a ++ b) = (htmlItems sp lower a).bind fun ps => (htmlItems sp lower b).map (ps ++ ·) := by
  induction a with
  | nil =>
    simp only [List.nil_append, htmlItems, Except.bind]
    cases htmlItems sp lower b <;> rfl
  | cons n a ih =>
    have hn := ha n (by simp)
    rw [List.cons_append, htmlItems_cons sp lower n _ hn, htmlItems_cons sp lower n _ hn, ih fun n h => ha n (by simp [h])]
    cases htmlFmt sp lower n with
    | error e => rfl
    | ok ps =>
      cases htmlItems sp lower a with
      | error e => rfl
      | ok qs =>
        cases htmlItems sp lower b with
        | error e => rfl
        | ok rs => simp [Except.bind, Except.map]

theorem tag_not_list (k : Kind) (n : Str) (d : ADict) (c : Node) : ¬ IsList (.tag k n d c) := by
  rintro ⟨l, h⟩; simp at h

theorem cell_not_list (n : String) (c : Node) : ¬ IsList (cell n c) := tag_not_list _ _ _ _

theorem plain_not_list (n : String) (d : ADict) (l : List Node) : ¬ IsList (plain n d l) := tag_not_list _ _ _ _

theorem cellsHtml_eq (sp : Char → Bool) (lower : Str → Str) (name : String) (hl : lower name.toList = name.toList) (cs : List Node) :
    cellsHtml sp lower name.toList cs = htmlItems sp lower (cs.map (cell name)) := by
  induction cs with
  | nil => rfl
  | cons c cs ih =>
    rw [List.map_cons, htmlItems_cons _ _ _ _ (cell_not_list _ _), ← ih]
    unfold cell
    rw [wrap_eq sp lower _ _ _ hl]
    simp only [cellsHtml]
    cases wrapHtml sp lower name.toList [] c <;> rfl

theorem list_of_tags (sp : Char → Bool) (lower : Str → Str) (l : List Node) (h : ∀ n ∈ l, ¬ IsList n) :
    htmlFmt sp lower (.list l) = htmlItems sp lower l := by
  apply htmlFmt_list
  rintro ⟨l', rfl⟩
  exact h _ (by simp) ⟨l', rfl⟩

theorem cells_not_list (name : String) (cs : List Node) : ∀ n ∈ cs.map (cell name), ¬ IsList n := by
  intro n hn
  obtain ⟨c, _, rfl⟩ := List.mem_map.1 hn
  exact tag_not_list _ _ _ _

theorem rowHtml_eq (sp : Char → Bool) (lower : Str → Str) (name : String) (hl : lower name.toList = name.toList)
    (cs : List Node) : rowHtml sp lower name.toList cs = wrapHtml sp lower "tr".toList [] (.list (cs.map (cell name))) := by
  unfold rowHtml wrapHtml
  rw [list_of_tags _ _ _ (cells_not_list name cs), cellsHtml_eq sp lower name hl]

theorem rows_not_list (name : String) (rs : List (List Node)) :
    ∀ n ∈ rs.map (fun r => plain "tr" [] (r.map (cell name))), ¬ IsList n := by
  intro n hn
  obtain ⟨c, _, rfl⟩ := List.mem_map.1 hn
  exact tag_not_list _ _ _ _

theorem rowsHtml_eq (sp : Char → Bool) (lower : Str → Str) (hl : LowerFine lower) (rs : List (List Node)) :
    rowsHtml sp lower rs = htmlItems sp lower (rs.map fun r => plain "tr" [] (r.map (cell "td"))) := by
  induction rs with
  | nil => rfl
  | cons r rs ih =>
    rw [List.map_cons, htmlItems_cons _ _ _ _ (plain_not_list _ _ _), ← ih]
    simp only [rowsHtml]
    rw [rowHtml_eq sp lower "td" (hl "td" (by simp))]
    show _ = (htmlFmt sp lower (.tag .generic "tr".toList [] (.list (r.map (cell "td"))))).bind _
    rw [wrap_eq sp lower _ _ _ (hl "tr" (by simp))]
    cases wrapHtml sp lower "tr".toList [] (.list (r.map (cell "td"))) <;> rfl

theorem dataTree_not_list (c : Cells) : ∀ n ∈ dataTree c, ¬ IsList n := by
  intro n hn
  unfold dataTree at hn
  rcases List.mem_append.1 hn with h | h
  · obtain ⟨c, _, rfl⟩ := List.mem_map.1 h
    exact tag_not_list _ _ _ _
  · rw [List.mem_singleton] at h
    subst h
    exact tag_not_list _ _ _ _

theorem dataHtml_eq (sp : Char → Bool) (lower : Str → Str) (hl : LowerFine lower) (c : Cells) :
    dataHtml sp lower c = htmlItems sp lower (dataTree c) := by
  have hb : htmlFmt sp lower (plain "tbody" [] (c.rows.map fun r => plain "tr" [] (r.map (cell "td")))) =
      ((rowsHtml sp lower c.rows).bind (element "tbody".toList [])).map fun h => [.elem (some h)] := by
    show htmlFmt sp lower (.tag .generic "tbody".toList [] (.list _)) = _
    rw [wrap_eq sp lower _ _ _ (hl "tbody" (by simp))]
    unfold wrapHtml
    rw [list_of_tags _ _ _ (rows_not_list "td" c.rows), rowsHtml_eq sp lower hl]
  unfold dataHtml dataTree
  cases hh : c.header with
  | none =>
    simp only [Option.toList_none, List.map_nil, List.nil_append]
    rw [htmlItems_cons _ _ _ _ (plain_not_list _ _ _), hb]
    simp only [Except.bind, htmlItems]
    cases rowsHtml sp lower c.rows with
    | error e => rfl
    | ok r =>
      simp only []
      cases element "tbody".toList [] r <;> rfl
  | some h =>
    have ht : htmlFmt sp lower (plain "thead" [] [plain "tr" [] (h.map (cell "th"))]) =
        ((rowHtml sp lower "th".toList h).bind fun tr => element "thead".toList [] [.elem (some tr)]).map fun h => [.elem (some h)] := by
      show htmlFmt sp lower (.tag .generic "thead".toList [] (.list _)) = _
      rw [wrap_eq sp lower _ _ _ (hl "thead" (by simp))]
      unfold wrapHtml
      rw [list_of_tags, htmlItems_cons _ _ _ _ (plain_not_list _ _ _)]
      · show (((htmlFmt sp lower (.tag .generic "tr".toList [] (.list (h.map (cell "th"))))).bind _).bind _).map _ = _
        rw [wrap_eq sp lower _ _ _ (hl "tr" (by simp)), rowHtml_eq sp lower "th" (hl "th" (by simp))]
        cases wrapHtml sp lower "tr".toList [] (.list (h.map (cell "th"))) <;> rfl
      · intro n hn
        rw [List.mem_singleton] at hn
        subst hn
        exact tag_not_list _ _ _ _
    simp only [Option.toList_some, List.map_cons, List.map_nil, List.singleton_append]
    rw [htmlItems_cons _ _ _ _ (plain_not_list _ _ _), ht, htmlItems_cons _ _ _ _ (plain_not_list _ _ _), hb]
    cases rowHtml sp lower "th".toList h with
    | error e => rfl
    | ok tr =>
      simp only [Except.bind, htmlItems]
      cases element "thead".toList [] [.elem (some tr)] with
      | error e => rfl
      | ok th =>
        simp only [Except.map]
        cases rowsHtml sp lower c.rows with
        | error e => rfl
        | ok r =>
          simp only []
          cases element "tbody".toList [] r <;> rfl

theorem itemsHtml_eq (sp : Char → Bool) (lower : Str → Str) (hl : LowerFine lower) (items : List Item) :
    itemsHtml sp lower items = htmlItems sp lower (itemsTree items) := by
  induction items with
  | nil => rfl
  | cons i items ih =>
    cases i with
    | data c =>
      simp only [itemsHtml, itemsTree]
      rw [htmlItems_append _ _ _ _ (dataTree_not_list c), dataHtml_eq sp lower hl, ih]
    | node n =>
      simp only [itemsTree]
      by_cases hn : IsList n
      · obtain ⟨l, rfl⟩ := hn
        simp only [itemsHtml, htmlItems, ih]
      · rw [htmlItems_cons _ _ _ _ hn, ← ih]
        cases n with
        | list l' => exact absurd ⟨l', rfl⟩ hn
        | str s => simp only [itemsHtml, htmlFmt, Except.bind]; rfl
        | tag k nm d c => simp only [itemsHtml]
        | eq b nm d col c html => simp only [itemsHtml]
        | other ts tx html => simp only [itemsHtml]

theorem itemsTree_single (items : List Item) (l : List Node) (h : itemsTree items = [.list l]) : items = [.node (.list l)] := by
  cases items with
  | nil => simp [itemsTree] at h
  | cons i items =>
    cases i with
    | data c =>
      exfalso
      have hm : Node.list l ∈ dataTree c ++ itemsTree items := by
        have : itemsTree (.data c :: items) = dataTree c ++ itemsTree items := rfl
        rw [← this, h]; simp
      have hne : dataTree c ≠ [] := by simp [dataTree]
      have : dataTree c ++ itemsTree items = [.list l] := h
      cases hd : dataTree c with
      | nil => exact hne hd
      | cons a r =>
        rw [hd] at this
        simp only [List.cons_append, List.cons.injEq] at this
        exact dataTree_not_list c a (by rw [hd]; simp) ⟨l, this.1⟩
    | node n =>
      have h : n :: itemsTree items = [.list l] := h
      simp only [List.cons.injEq] at h
      obtain ⟨rfl, h0⟩ := h
      cases items with
      | nil => rfl
      | cons j items =>
        exfalso
        cases j with
        | data c =>
          have : dataTree c ++ itemsTree items = [] := h0
          rw [List.append_eq_nil_iff] at this
          simp [dataTree] at this
        | node m => simp [itemsTree] at h0

theorem tableHtml_eq (sp : Char → Bool) (lower : Str → Str) (hl : LowerFine lower) (k : Table) (d : ADict) (items : List Item) :
    tableHtml sp lower k d items = (tableAttrs k d).bind fun d' => wrapHtml sp lower "table".toList d' (.list (itemsTree items)) := by
  unfold tableHtml
  cases tableAttrs k d with
  | error e => rfl
  | ok d' =>
    simp only [Except.bind, wrapHtml]
    by_cases hone : ∃ l, items = [.node (.list l)]
    · obtain ⟨l, rfl⟩ := hone
      simp only [itemsTree, htmlFmt, tableParts]
    · have hp : tableParts sp lower items = itemsHtml sp lower items := by
        unfold tableParts
        split
        · rename_i l; exact absurd ⟨l, rfl⟩ hone
        · rfl
      rw [htmlFmt_list, ← itemsHtml_eq sp lower hl, hp]
      · rintro ⟨l, he⟩
        exact hone ⟨l, itemsTree_single items l he⟩

theorem tableAttrs_ok (k : Table) (d d' : ADict) (hn : d.keys.Nodup)
    (hd : ∀ n, ∀ T ∈ trackedTargets, n ++ '.' :: T ∈ d.keys → ¬ Suffixed trackedTargets n)
    (h : tableAttrs k d = .ok d') : TableAttrs k d d' := by
  have hs : ∀ a ∈ d.keys, ¬ Suffixed trackedTargets (stripAttr trackedTargets a) := by
    intro a ha
    by_cases hsu : Suffixed trackedTargets a
    · obtain ⟨t, ht, n, rfl⟩ := hsu
      rw [stripAttr_suffixed _ trackedTargets_good _ _ ht]
      exact hd n t ht ha
    · rw [stripAttr_not_suffixed _ _ hsu]
      exact hsu
  have hf : Attrs.filter trackedTargets d none (some ".html".toList) = Attrs.filter trackedTargets d none (some "html".toList) := by
    have h1 : Attrs.stripDots ".html".toList = "html".toList := by decide
    have h2 : Attrs.stripDots "html".toList = "html".toList := by decide
    unfold Attrs.filter
    simp only [Option.map_some, h1, h2]
  obtain ⟨f1, f2, _⟩ := C04_filter_all trackedTargets trackedTargets_good d hn "html".toList (by decide) hs
  have get : ∀ a, ¬ Suffixed trackedTargets a →
      Dict.get? (Attrs.filter trackedTargets d none (some ".html".toList)) a = valueFor d "html".toList a := by
    intro a ha
    rw [hf]
    cases hv : valueFor d "html".toList a with
    | some v => exact Dict.get?_of_mem _ f1 a v ((f2 a v).2 ⟨ha, hv⟩)
    | none =>
      rw [Dict.get?_eq_none_iff]
      intro hm
      obtain ⟨⟨a', v⟩, hmm, he⟩ := List.mem_map.1 hm
      have := ((f2 _ _).1 hmm).2
      simp only at he
      rw [he, hv] at this
      simp at this
  have hcls : ¬ Suffixed trackedTargets "class".toList := by
    rintro ⟨T, hT, n, he⟩
    have : '.' ∈ "class".toList := by rw [he]; simp
    revert this; decide
  have other : ∀ (v : AVal) (a : Str), ¬ Suffixed trackedTargets a → a ≠ "class".toList →
      Dict.get? (Dict.set (Attrs.filter trackedTargets d none (some ".html".toList)) "class".toList v) a =
        valueFor d "html".toList a := by
    intro v a ha hc
    rw [Dict.get?_set, if_neg (Ne.symm hc), get a ha]
  have hk : ∃ c : String, (k, c) ∈ tableClasses ∧ k.cls = c.toList := by
    cases k
    · exact ⟨"margintbl", by simp [tableClasses], rfl⟩
    · exact ⟨"table", by simp [tableClasses], rfl⟩
    · exact ⟨"fulltable", by simp [tableClasses], rfl⟩
  obtain ⟨c, hc, hce⟩ := hk
  unfold tableAttrs at h
  simp only [get _ hcls] at h
  cases hv : valueFor d "html".toList "class".toList with
  | none =>
    rw [hv] at h
    simp only [Except.ok.injEq] at h
    subst h
    exact ⟨other _, c, hc, Or.inl ⟨hv, by rw [Dict.get?_set_self, hce]⟩⟩
  | some v =>
    rw [hv] at h
    cases v with
    | pos t => simp at h
    | str s =>
      simp only [Except.ok.injEq] at h
      subst h
      exact ⟨other _, c, hc, Or.inr ⟨s, hv, by rw [Dict.get?_set_self, hce]; simp⟩⟩

theorem tableAttrs_exists (k : Table) (d : ADict) (hn : d.keys.Nodup)
    (hd : ∀ n, ∀ T ∈ trackedTargets, n ++ '.' :: T ∈ d.keys → ¬ Suffixed trackedTargets n) :
    (∃ d', tableAttrs k d = .ok d') ↔ ∀ t, valueFor d "html".toList "class".toList ≠ some (.pos t) := by
  have hs : ∀ a ∈ d.keys, ¬ Suffixed trackedTargets (stripAttr trackedTargets a) := by
    intro a ha
    by_cases hsu : Suffixed trackedTargets a
    · obtain ⟨t, ht, n, rfl⟩ := hsu
      rw [stripAttr_suffixed _ trackedTargets_good _ _ ht]
      exact hd n t ht ha
    · rw [stripAttr_not_suffixed _ _ hsu]
      exact hsu
  have hf : Attrs.filter trackedTargets d none (some ".html".toList) = Attrs.filter trackedTargets d none (some "html".toList) := by
    have h1 : Attrs.stripDots ".html".toList = "html".toList := by decide
    have h2 : Attrs.stripDots "html".toList = "html".toList := by decide
    unfold Attrs.filter
    simp only [Option.map_some, h1, h2]
  obtain ⟨f1, f2, _⟩ := C04_filter_all trackedTargets trackedTargets_good d hn "html".toList (by decide) hs
  have hcls : ¬ Suffixed trackedTargets "class".toList := by
    rintro ⟨T, hT, n, he⟩
    have : '.' ∈ "class".toList := by rw [he]; simp
    revert this; decide
  have get : Dict.get? (Attrs.filter trackedTargets d none (some ".html".toList)) "class".toList =
      valueFor d "html".toList "class".toList := by
    rw [hf]
    cases hv : valueFor d "html".toList "class".toList with
    | some v => exact Dict.get?_of_mem _ f1 _ v ((f2 _ v).2 ⟨hcls, hv⟩)
    | none =>
      rw [Dict.get?_eq_none_iff]
      intro hm
      obtain ⟨⟨a', v⟩, hm, he⟩ := List.mem_map.1 hm
      have := ((f2 _ _).1 hm).2
      simp only at he
      rw [he, hv] at this
      simp at this
  unfold tableAttrs
  simp only [get]
  cases valueFor d "html".toList "class".toList with
  | none => simp
  | some v => cases v <;> simp

mutual
theorem listNode_eq (name : String) : ∀ x : ListTag.Node Node, listNode name.toList x = itemTree name x
  | .li x => by simp only [listNode, itemTree]; rfl
  | .sub l => by simp only [listNode, itemTree, listNodes_eq name l]; rfl
theorem listNodes_eq (name : String) : ∀ l : List (ListTag.Node Node), listNodes name.toList l = listTree name l
  | [] => by simp only [listNodes, listTree]
  | x :: l => by simp only [listNodes, listTree, listNode_eq name x, listNodes_eq name l]
end

/-! ### Texts -/

theorem hasTexts_append (sp : Char → Bool) (tex : Bool) (a b : List Node) (ts us : List Str) (h1 : HasTexts sp tex (.list a) ts)
    (h2 : HasTexts sp tex (.list b) us) : HasTexts sp tex (.list (a ++ b)) (ts ++ us) := by
  induction a generalizing ts with
  | nil => cases h1; exact h2
  | cons n a ih =>
    cases h1 with
    | cons _ _ t u h3 h4 =>
      rw [List.append_assoc]
      exact .cons _ _ _ _ h3 (ih u h4)

theorem cellTexts_append (sp : Char → Bool) (tex : Bool) (a b : List Node) (ts : List Str) (h : CellTexts sp tex (a ++ b) ts) :
    ∃ x y, CellTexts sp tex a x ∧ CellTexts sp tex b y ∧ ts = x ++ y := by
  induction a generalizing ts with
  | nil => exact ⟨[], ts, .nil, h, rfl⟩
  | cons n a ih =>
    cases h with
    | cons _ _ t u h1 h2 =>
      obtain ⟨x, y, hx, hy, rfl⟩ := ih u h2
      exact ⟨_, y, .cons _ _ t x h1 hx, hy, by simp⟩

theorem cells_texts (sp : Char → Bool) (name : String) (cs : List Node) (ts : List Str) (h : CellTexts sp false cs ts) :
    HasTexts sp false (.list (cs.map (cell name))) ts := by
  generalize hx : false = tex at h
  induction h with
  | nil => exact .nil
  | cons c cs ts us h1 h2 ih =>
    subst hx
    exact .cons _ _ _ _ (.tag _ _ _ _ _ (by decide) h1) ih

theorem rows_texts (sp : Char → Bool) (rs : List (List Node)) (ts : List Str) (h : CellTexts sp false rs.flatten ts) :
    HasTexts sp false (.list (rs.map fun r => plain "tr" [] (r.map (cell "td")))) ts := by
  induction rs generalizing ts with
  | nil => cases h; exact .nil
  | cons r rs ih =>
    rw [List.flatten_cons] at h
    obtain ⟨x, y, hx, hy, rfl⟩ := cellTexts_append _ _ _ _ _ h
    exact .cons _ _ _ _ (.tag _ _ _ _ _ (by decide) (cells_texts sp "td" r x hx)) (ih y hy)

theorem data_texts (sp : Char → Bool) (c : Cells) (ts : List Str) (h : CellTexts sp false (c.header.getD [] ++ c.rows.flatten) ts) :
    HasTexts sp false (.list (dataTree c)) ts := by
  obtain ⟨x, y, hx, hy, rfl⟩ := cellTexts_append _ _ _ _ _ h
  unfold dataTree
  refine hasTexts_append _ _ _ _ _ _ ?_ ?_
  · cases hh : c.header with
    | none => rw [hh] at hx; cases hx; exact .nil
    | some cells =>
      rw [hh] at hx
      have h1 : HasTexts sp false (plain "tr" [] (cells.map (cell "th"))) x := .tag _ _ _ _ _ (by decide) (cells_texts sp "th" cells x hx)
      have h2 := HasTexts.cons _ [] _ _ h1 .nil
      have h3 := HasTexts.cons (plain "thead" [] [plain "tr" [] (cells.map (cell "th"))]) [] _ _ (.tag _ _ _ _ _ (by decide) h2) .nil
      simpa using h3
  · have h1 : HasTexts sp false (plain "tbody" [] (c.rows.map fun r => plain "tr" [] (r.map (cell "td")))) y :=
      .tag _ _ _ _ _ (by decide) (rows_texts sp c.rows y hy)
    have h2 := HasTexts.cons _ [] _ _ h1 .nil
    simpa using h2

theorem items_texts (sp : Char → Bool) (items : List Item) (ts : List Str) (h : ItemTexts sp false items ts) :
    HasTexts sp false (.list (itemsTree items)) ts := by
  generalize hx : false = tex at h
  induction h with
  | nil => exact .nil
  | data c l ts us h1 h2 ih =>
    subst hx
    exact hasTexts_append _ _ _ _ _ _ (data_texts sp c ts h1) ih
  | node n l ts us h1 h2 ih =>
    subst hx
    exact .cons _ _ _ _ h1 ih

theorem soundAll_append (a b : List Node) : SoundAll (a ++ b) ↔ SoundAll a ∧ SoundAll b := by
  induction a with
  | nil => simp [SoundAll]
  | cons n a ih => simp only [List.cons_append, SoundAll, ih, and_assoc]

theorem soundAll_iff (l : List Node) : SoundAll l ↔ ∀ n ∈ l, Sound n := by
  induction l with
  | nil => simp [SoundAll]
  | cons n l ih => simp [SoundAll, ih]

theorem items_sound (items : List Item) (h : AllItems Sound items) : SoundAll (itemsTree items) := by
  induction items with
  | nil => simp [itemsTree, SoundAll]
  | cons i items ih =>
    have ih := ih fun j hj => h j (by simp [hj])
    cases i with
    | node n => exact ⟨(h (.node n) (by simp)).1 n rfl, ih⟩
    | data c =>
      obtain ⟨h1, h2⟩ := (h (.data c) (by simp)).2 c rfl
      have hc : ∀ (name : String) (cs : List Node), (∀ n ∈ cs, Sound n) → SoundAll (cs.map (cell name)) := by
        intro name cs hs
        rw [soundAll_iff]
        intro n hn
        obtain ⟨c, hc, rfl⟩ := List.mem_map.1 hn
        simp only [cell, Sound]
        exact hs c hc
      show SoundAll (dataTree c ++ itemsTree items)
      rw [soundAll_append]
      refine ⟨?_, ih⟩
      unfold dataTree
      rw [soundAll_append]
      constructor
      · rw [soundAll_iff]
        intro n hn
        obtain ⟨cells, hcs, rfl⟩ := List.mem_map.1 hn
        rw [Option.mem_toList] at hcs
        simp only [plain, Sound, SoundAll, and_true]
        exact hc _ _ (h1 cells hcs)
      · simp only [plain, Sound, SoundAll, and_true]
        rw [soundAll_iff]
        intro n hn
        obtain ⟨r, hr, rfl⟩ := List.mem_map.1 hn
        simp only [Sound]
        exact hc _ _ (h2 r hr)

/-- A node with a html that is that of a plain tag. -/
theorem wrap_sound (sp : Char → Bool) (lower : Str → Str) (name : Str) (d : ADict) (c : Node) (h : Html) (hl : lower name = name)
    (hs : Sound c) (ts : List Str) (ht : HasTexts sp false c ts) (hw : wrapHtml sp lower name d c = .ok h) :
    (htmlTexts h).filter (· ≠ []) = ts.filter (· ≠ []) ∧ AllAllowed h := by
  have h1 := wrap_shown sp lower name d c h hl hw
  have hs' : Sound (.tag .generic name d c) := by simp only [Sound]; exact hs
  have h2 := shown_texts sp lower _ _ hs' h1 ts (.tag _ _ _ _ _ (by decide) ht)
  have h3 := shown_allowed sp lower _ _ hs' h1
  simp only [htmlTextsAll, List.append_nil] at h2
  exact ⟨h2, h3.1⟩

mutual
theorem items1_snd {α : Type} (d d' : Nat) : ∀ x : ListTag.Node α, (ListTag.Node.items1 d x).map Prod.snd = (ListTag.Node.items1 d' x).map Prod.snd
  | .li x => by simp [ListTag.Node.items1]
  | .sub l => by simp only [ListTag.Node.items1]; exact items_snd (d + 1) (d' + 1) l
theorem items_snd {α : Type} (d d' : Nat) : ∀ l : List (ListTag.Node α), (ListTag.Node.items d l).map Prod.snd = (ListTag.Node.items d' l).map Prod.snd
  | [] => by simp [ListTag.Node.items]
  | x :: l => by simp only [ListTag.Node.items, List.map_append, items1_snd d d' x, items_snd d d' l]
end

mutual
theorem item_sound (name : String) : ∀ (x : ListTag.Node Node), SoundAll ((ListTag.Node.items1 0 x).map Prod.snd) → Sound (itemTree name x)
  | .li x, h => by
    simp only [itemTree, cell, Sound]
    simpa [ListTag.Node.items1, SoundAll] using h
  | .sub l, h => by
    simp only [itemTree, plain, Sound]
    refine list_sound name l ?_
    simp only [ListTag.Node.items1] at h
    rw [items_snd 0 1]
    exact h
theorem list_sound (name : String) : ∀ (l : List (ListTag.Node Node)), SoundAll ((ListTag.Node.items 0 l).map Prod.snd) →
    SoundAll (listTree name l)
  | [], h => by simp only [listTree, SoundAll]
  | x :: l, h => by
    simp only [ListTag.Node.items, List.map_append, soundAll_append] at h
    simp only [listTree, SoundAll]
    exact ⟨item_sound name x h.1, list_sound name l h.2⟩
end

theorem hasTexts_split (sp : Char → Bool) (tex : Bool) (a b : List Node) (ts : List Str) (h : HasTexts sp tex (.list (a ++ b)) ts) :
    ∃ x y, HasTexts sp tex (.list a) x ∧ HasTexts sp tex (.list b) y ∧ ts = x ++ y := by
  induction a generalizing ts with
  | nil => exact ⟨[], ts, .nil, h, rfl⟩
  | cons n a ih =>
    cases h with
    | cons _ _ t u h1 h2 =>
      obtain ⟨x, y, hx, hy, rfl⟩ := ih u h2
      exact ⟨_, y, .cons _ _ t x h1 hx, hy, by simp⟩

mutual
theorem item_texts (sp : Char → Bool) (tex : Bool) (name : String) : ∀ (x : ListTag.Node Node) (ts : List Str),
    HasTexts sp tex (.list ((ListTag.Node.items1 0 x).map Prod.snd)) ts → HasTexts sp tex (itemTree name x) ts
  | .li x, ts, h => by
    simp only [itemTree, cell]
    simp only [ListTag.Node.items1, List.map_cons, List.map_nil] at h
    cases h with
    | cons _ _ t u h1 h2 =>
      cases h2
      rw [List.append_nil]
      exact .tag _ _ _ _ _ (by decide) h1
  | .sub l, ts, h => by
    simp only [itemTree, plain]
    simp only [ListTag.Node.items1] at h
    rw [items_snd _ 0] at h
    exact .tag _ _ _ _ _ (by decide) (list_texts sp tex name l ts h)
theorem list_texts (sp : Char → Bool) (tex : Bool) (name : String) : ∀ (l : List (ListTag.Node Node)) (ts : List Str),
    HasTexts sp tex (.list ((ListTag.Node.items 0 l).map Prod.snd)) ts → HasTexts sp tex (.list (listTree name l)) ts
  | [], ts, h => by
    simp only [ListTag.Node.items, List.map_nil] at h
    simp only [listTree]
    exact h
  | x :: l, ts, h => by
    simp only [ListTag.Node.items, List.map_append] at h
    obtain ⟨a, b, ha, hb, rfl⟩ := hasTexts_split _ _ _ _ _ h
    simp only [listTree]
    exact .cons _ _ _ _ (item_texts sp tex name x a ha) (list_texts sp tex name l b hb)
end

/-! ### Texts in LaTeX -/

theorem escaped_append (a b : Str) : escaped (a ++ b) = escaped a ++ escaped b := by simp [escaped]

theorem inOrder_escaped (ts : List Str) (x : Str) (h : InOrder ts x) : InOrder (ts.map escaped) (escaped x) := by
  induction h with
  | nil g => exact .nil _
  | cons g s r ts hr ih =>
    rw [escaped_append, escaped_append]
    exact .cons _ _ _ _ ih

theorem cellsWritten_texts (sp : Char → Bool) (cs : List Node) (xs : List Str) (hs : ∀ c ∈ cs, Sayable c) (h : CellsWritten sp cs xs)
    (ts : List Str) (ht : CellTexts sp true cs ts) : ∃ tss : List (List Str), ts = tss.flatten ∧ tss.length = xs.length ∧
      ∀ p ∈ tss.zip xs, InOrder p.1 p.2 := by
  induction h generalizing ts with
  | nil => cases ht; exact ⟨[], rfl, rfl, by simp⟩
  | cons c cs x xs hx hxs ih =>
    cases ht with
    | cons _ _ t u h1 h2 =>
      obtain ⟨tss, rfl, h4, h5⟩ := ih (fun c hc => hs c (by simp [hc])) u h2
      obtain ⟨t', ht', ho⟩ := written_texts sp false c x (hs c (by simp)) hx
      rw [texts_unique sp true c t t' h1 ht']
      refine ⟨t'.map escaped :: tss, by simp, by simp [h4], ?_⟩
      intro p hp
      simp only [List.zip_cons_cons, List.mem_cons] at hp
      rcases hp with rfl | hp
      · exact inOrder_escaped _ _ ho
      · exact h5 p hp

theorem inOrder_sep (sep : Str) (tss : List (List Str)) (xs : List Str) (hl : tss.length = xs.length)
    (h : ∀ p ∈ tss.zip xs, InOrder p.1 p.2) : InOrder tss.flatten (xs.intersperse sep).flatten := by
  induction xs generalizing tss with
  | nil =>
    cases tss with
    | nil => exact .nil _
    | cons t tss => simp at hl
  | cons x xs ih =>
    cases tss with
    | nil => simp at hl
    | cons t tss =>
      have h1 : InOrder t x := h (t, x) (by simp)
      have h2 := ih tss (by simpa using hl) fun p hp => h p (by simp [hp])
      cases xs with
      | nil =>
        cases tss with
        | nil => simpa using h1
        | cons _ _ => simp at hl
      | cons y ys =>
        have := h1.append (h2.more sep [])
        simpa using this

theorem row_texts (sp : Char → Bool) (cs : List Node) (x : Str) (hs : ∀ c ∈ cs, Sayable c) (h : RowWritten sp cs x) (ts : List Str)
    (ht : CellTexts sp true cs ts) : InOrder ts x := by
  obtain ⟨xs, hx, rfl⟩ := h
  obtain ⟨tss, rfl, h1, h2⟩ := cellsWritten_texts sp cs xs hs hx ts ht
  simpa using (inOrder_sep " & ".toList tss xs h1 h2).more [] " \\\\\n".toList

theorem rowsWritten_texts (sp : Char → Bool) (rs : List (List Node)) (x : Str) (hs : ∀ r ∈ rs, ∀ c ∈ r, Sayable c)
    (h : RowsWritten sp rs x) (ts : List Str) (ht : CellTexts sp true rs.flatten ts) : InOrder ts x := by
  induction h generalizing ts with
  | nil => cases ht; exact .nil _
  | cons r rs x y hx hy ih =>
    rw [List.flatten_cons] at ht
    obtain ⟨a, b, ha, hb, rfl⟩ := cellTexts_append _ _ _ _ _ ht
    exact (row_texts sp r x (hs r (by simp)) hx a ha).append (ih (fun r hr => hs r (by simp [hr])) b hb)

theorem onLines_inOrder (ts : List Str) (x y : Str) (h : OnLines x y) (ht : InOrder ts x) : InOrder ts y := by
  obtain ⟨a, b, rfl, _⟩ := h
  exact ht.more a b

theorem data_inOrder (sp : Char → Bool) (c : Cells) (out : Str) (hs : (∀ h, c.header = some h → ∀ n ∈ h, Sayable n) ∧
    ∀ r ∈ c.rows, ∀ n ∈ r, Sayable n) (h : DataWritten sp c out) (ts : List Str)
    (ht : CellTexts sp true (c.header.getD [] ++ c.rows.flatten) ts) : InOrder ts out := by
  obtain ⟨hd, r, y, h1, h2, h3, h4, rfl⟩ := h
  obtain ⟨a, b, ha, hb, rfl⟩ := cellTexts_append _ _ _ _ _ ht
  have hr := rowsWritten_texts sp c.rows r hs.2 h3 b hb
  have hh : InOrder a hd := by
    cases hc : c.header with
    | none =>
      rw [hc] at ha
      cases ha
      exact .nil _
    | some cells =>
      rw [hc] at ha
      obtain ⟨x, hx, rfl⟩ := h2 cells hc
      simpa using (row_texts sp cells x (hs.1 cells hc) hx a ha).more [] "\\midrule\n".toList
  have hy : InOrder (a ++ b) y := by
    refine onLines_inOrder _ _ _ h4 ?_
    have := (hh.append hr).more "\\toprule\n".toList "\\bottomrule".toList
    simpa only [List.append_assoc] using this
  have := hy.more ("\n\\begin{tabular}{".toList ++ List.replicate c.cols 'l' ++ "}".toList) "\\end{tabular}\n".toList
  simpa only [List.append_assoc] using this

theorem items_inOrder (sp : Char → Bool) (items : List Item) (x : Str) (hs : AllItems Sayable items) (h : ItemsWritten sp items x)
    (ts : List Str) (ht : ItemTexts sp true items ts) : InOrder ts x := by
  induction h generalizing ts with
  | nil => cases ht; exact .nil _
  | data c l x y hx hy ih =>
    cases ht with
    | data _ _ t u h1 h2 =>
      exact (data_inOrder sp c x ((hs (.data c) (by simp)).2 c rfl) hx t h1).append (ih (fun j hj => hs j (by simp [hj])) u h2)
  | node n l x y hx hy ih =>
    cases ht with
    | node _ _ t u h1 h2 =>
      obtain ⟨t', ht', ho⟩ := written_texts sp false n x ((hs (.node n) (by simp)).1 n rfl) hx
      rw [texts_unique sp true n t t' h1 ht']
      exact ho.append (ih (fun j hj => hs j (by simp [hj])) u h2)

theorem bullets_inOrder (sp : Char → Bool) (math : Bool) (items : List (Nat × Node)) (x : Str) (hs : ∀ e ∈ items, Sayable e.2)
    (h : BulletsWritten sp math items x) (ts : List Str) (ht : HasTexts sp true (.list (items.map Prod.snd)) ts) : InOrder ts x := by
  induction h generalizing ts with
  | nil => cases ht; exact .nil _
  | cons n c l x y hx hy ih =>
    simp only [List.map_cons] at ht
    cases ht with
    | cons _ _ t u h1 h2 =>
      obtain ⟨t', ht', ho⟩ := written_texts sp math c x (hs (n, c) (by simp)) hx
      rw [texts_unique sp true c t t' h1 ht']
      exact (ho.more (List.replicate (n + 1) '§' ++ " ".toList) "\n".toList).append (ih (fun e he => hs e (by simp [he])) u h2)

theorem writtenOpt_inOrder (sp : Char → Bool) (math : Bool) (n : Option Node) (x : Str) (hs : ∀ m, n = some m → Sayable m)
    (h : WrittenOpt sp math n x) (ts : List Str) (ht : HasTexts sp true (.list n.toList) ts) : InOrder ts x := by
  cases n with
  | none => cases ht; exact .nil _
  | some m =>
    simp only [Option.toList_some] at ht
    cases ht with
    | cons _ _ t u h1 h2 =>
      cases h2
      obtain ⟨t', ht', ho⟩ := written_texts sp math m x (hs m rfl) (h.2 m rfl)
      rw [texts_unique sp true m t t' h1 ht', List.append_nil]
      exact ho

/-! ### Braces -/

theorem balanced_escaped (x : Str) (h : Balanced x) : Balanced (escaped x) := by
  have hc : ∀ (c : Char) (y : Str), c ≠ '&' → c ≠ '\\' → (escaped y).count c = y.count c := by
    intro c y h1 h2
    induction y with
    | nil => rfl
    | cons a y ih =>
      have : escaped (a :: y) = (if a = '&' then ['\\', '&'] else [a]) ++ escaped y := by simp [escaped]
      rw [this, List.count_append, ih]
      by_cases ha : a = '&'
      · subst ha
        simp [List.count_cons, h1, h2, Ne.symm h1, Ne.symm h2]
      · simp [ha, List.count_cons, Nat.add_comm]
  have hp : ∀ (p y : Str), p <+: escaped y → ∃ q, q <+: y ∧ ∀ c, c ≠ '&' → c ≠ '\\' → p.count c = q.count c := by
    intro p y
    induction y generalizing p with
    | nil =>
      intro hp
      have : p = [] := by simpa [escaped] using hp
      subst this
      exact ⟨[], by simp, by simp⟩
    | cons a y ih =>
      intro hp
      have he : escaped (a :: y) = (if a = '&' then ['\\', '&'] else [a]) ++ escaped y := by simp [escaped]
      rw [he] at hp
      rcases prefix_append_cases _ _ _ hp with h | ⟨q, rfl, hq⟩
      · by_cases ha : a = '&'
        · rw [if_pos ha] at h
          refine ⟨[], by simp, ?_⟩
          intro c h1 h2
          rw [List.count_eq_zero_of_not_mem]
          · rfl
          · intro hm
            have := h.subset hm
            simp [h1, h2] at this
        · rw [if_neg ha] at h
          exact ⟨p, h.trans (by simp), fun _ _ _ => rfl⟩
      · obtain ⟨r, hr, hcr⟩ := ih q hq
        refine ⟨a :: r, by simpa using hr, ?_⟩
        intro c h1 h2
        rw [List.count_append, hcr c h1 h2]
        by_cases ha : a = '&'
        · subst ha
          simp [List.count_cons, h1, h2, Ne.symm h1, Ne.symm h2]
        · simp [ha, List.count_cons, Nat.add_comm]
  refine ⟨by rw [hc '{' x (by decide) (by decide), hc '}' x (by decide) (by decide)]; exact h.1, ?_⟩
  intro p hpp
  obtain ⟨q, hq, hcq⟩ := hp p x hpp
  rw [hcq '{' (by decide) (by decide), hcq '}' (by decide) (by decide)]
  exact h.2 q hq

theorem balanced_const (s : Str) (h1 : '{' ∉ s) (h2 : '}' ∉ s) : Balanced s := balanced_none s h1 h2

theorem tidy_balanced (sp : Char → Bool) (math : Bool) (n : Node) (x : Str) (hs : Sayable n) (h : Written sp math n x) (ht : Tidy sp n)
    (h1 : sp '{' = false) (h2 : sp '}' = false) : Balanced x :=
  written_balanced sp math n x hs h ht.1 h1 h2 ht.2

theorem row_balanced (sp : Char → Bool) (h1 : sp '{' = false) (h2 : sp '}' = false) (cs : List Node) (x : Str)
    (hs : ∀ c ∈ cs, Sayable c ∧ Tidy sp c) (h : RowWritten sp cs x) : Balanced x := by
  obtain ⟨xs, hx, rfl⟩ := h
  refine balanced_append _ _ ?_ (balanced_none _ (by decide) (by decide))
  induction hx with
  | nil => exact balanced_none _ (by simp) (by simp)
  | cons c cs x xs hw hc ih =>
    have hb := balanced_escaped x (tidy_balanced sp false c x (hs c (by simp)).1 hw (hs c (by simp)).2 h1 h2)
    have ih := ih fun c hc => hs c (by simp [hc])
    cases xs with
    | nil => simpa using hb
    | cons y ys =>
      have := balanced_append _ _ (balanced_append _ _ hb (balanced_none " & ".toList (by decide) (by decide))) ih
      simpa using this

theorem rows_balanced (sp : Char → Bool) (h1 : sp '{' = false) (h2 : sp '}' = false) (rs : List (List Node)) (x : Str)
    (hs : ∀ r ∈ rs, ∀ c ∈ r, Sayable c ∧ Tidy sp c) (h : RowsWritten sp rs x) : Balanced x := by
  induction h with
  | nil => exact balanced_none _ (by simp) (by simp)
  | cons r rs x y hx hy ih =>
    exact balanced_append _ _ (row_balanced sp h1 h2 r x (hs r (by simp)) hx) (ih fun r hr => hs r (by simp [hr]))

theorem data_balanced (sp : Char → Bool) (h1 : sp '{' = false) (h2 : sp '}' = false) (c : Cells) (out : Str)
    (hs : (∀ h, c.header = some h → ∀ n ∈ h, Sayable n ∧ Tidy sp n) ∧ ∀ r ∈ c.rows, ∀ n ∈ r, Sayable n ∧ Tidy sp n)
    (h : DataWritten sp c out) : Balanced out := by
  obtain ⟨hd, r, y, e1, e2, e3, e4, rfl⟩ := h
  have hr := rows_balanced sp h1 h2 c.rows r hs.2 e3
  have hh : Balanced hd := by
    cases hc : c.header with
    | none => rw [e1 hc]; exact balanced_none _ (by simp) (by simp)
    | some cells =>
      obtain ⟨x, hx, rfl⟩ := e2 cells hc
      exact balanced_append _ _ (row_balanced sp h1 h2 cells x (hs.1 cells hc) hx) (balanced_none _ (by decide) (by decide))
  have hy : Balanced y := by
    refine balanced_onLines _ _ e4 ?_
    exact balanced_append _ _ (balanced_append _ _ (balanced_append _ _ (balanced_none _ (by decide) (by decide)) hh) hr)
      (balanced_none _ (by decide) (by decide))
  have hl : Balanced (List.replicate c.cols 'l') := by
    refine balanced_none _ ?_ ?_ <;> (intro hm; rw [List.mem_replicate] at hm; exact absurd hm.2 (by decide))
  have := balanced_environment "tabular" ('{' :: List.replicate c.cols 'l' ++ ['}']) y (by decide) (by decide) (balanced_wrap _ hl) hy
  simpa using this

theorem items_balanced (sp : Char → Bool) (h1 : sp '{' = false) (h2 : sp '}' = false) (items : List Item) (x : Str)
    (hs : AllItems (fun n => Sayable n ∧ Tidy sp n) items) (h : ItemsWritten sp items x) : Balanced x := by
  induction h with
  | nil => exact balanced_none _ (by simp) (by simp)
  | data c l x y hx hy ih =>
    exact balanced_append _ _ (data_balanced sp h1 h2 c x ((hs (.data c) (by simp)).2 c rfl) hx) (ih fun j hj => hs j (by simp [hj]))
  | node n l x y hx hy ih =>
    have hn := (hs (.node n) (by simp)).1 n rfl
    exact balanced_append _ _ (tidy_balanced sp false n x hn.1 hx hn.2 h1 h2) (ih fun j hj => hs j (by simp [hj]))

theorem table_balanced (sp : Char → Bool) (h1 : sp '{' = false) (h2 : sp '}' = false) (k : Table) (items : List Item) (out : Str)
    (hs : AllItems (fun n => Sayable n ∧ Tidy sp n) items) (h : TableWritten sp k items out) : Balanced out := by
  obtain ⟨e, x, y, he, hx, hy, rfl⟩ := h
  have hb := balanced_onLines _ _ hy (items_balanced sp h1 h2 items x hs hx)
  have hb' : '{' ∉ e.toList ∧ '}' ∉ e.toList := by
    simp only [tableEnvs, List.mem_cons, Prod.mk.injEq, List.not_mem_nil, or_false] at he
    rcases he with ⟨_, rfl⟩ | ⟨_, rfl⟩ | ⟨_, rfl⟩ <;> decide
  have := balanced_environment e [] y hb'.1 hb'.2 (balanced_none _ (by simp) (by simp)) hb
  simpa only [List.append_nil] using this

theorem bullets_balanced (sp : Char → Bool) (h1 : sp '{' = false) (h2 : sp '}' = false) (math : Bool) (items : List (Nat × Node)) (x : Str)
    (hs : ∀ e ∈ items, Sayable e.2 ∧ Tidy sp e.2) (h : BulletsWritten sp math items x) : Balanced x := by
  induction h with
  | nil => exact balanced_none _ (by simp) (by simp)
  | cons n c l x y hx hy ih =>
    have hc := hs (n, c) (by simp)
    have hr : Balanced (List.replicate (n + 1) '§' ++ " ".toList) := by
      refine balanced_none _ ?_ ?_ <;>
        (intro hm; rcases List.mem_append.1 hm with hm | hm
         · rw [List.mem_replicate] at hm; exact absurd hm.2 (by decide)
         · revert hm; decide)
    exact balanced_append _ _ (balanced_append _ _ (balanced_append _ _ hr (tidy_balanced sp math c x hc.1 hx hc.2 h1 h2))
      (balanced_none _ (by decide) (by decide))) (ih fun e he => hs e (by simp [he]))

theorem list_balanced (sp : Char → Bool) (h1 : sp '{' = false) (h2 : sp '}' = false) (math : Bool) (items : List (Nat × Node)) (out : Str)
    (hs : ∀ e ∈ items, Sayable e.2 ∧ Tidy sp e.2) (h : ListWritten sp math items out) : Balanced out := by
  obtain ⟨x, y, hx, hy, rfl⟩ := h
  have hb := balanced_onLines _ _ hy (bullets_balanced sp h1 h2 math items x hs hx)
  have := balanced_environment "easylist" "[itemize]".toList y (by decide) (by decide) (balanced_none _ (by decide) (by decide)) hb
  simpa using this

theorem caption_balanced (sp : Char → Bool) (h1 : sp '{' = false) (h2 : sp '}' = false) (math : Bool) (label : Option Node)
    (content : Node) (anchor : Option Node) (out : Str) (hl : ∀ l, label = some l → Sayable l ∧ Tidy sp l)
    (hc : Sayable content ∧ Tidy sp content) (ha : ∀ i, anchor = some i → Sayable i ∧ Tidy sp i)
    (h : CaptionWritten sp math label content anchor out) : Balanced out := by
  obtain ⟨a, b, i, wa, wb, wi, rfl⟩ := h
  have hopt : ∀ (n : Option Node) (x : Str), (∀ l, n = some l → Sayable l ∧ Tidy sp l) → WrittenOpt sp math n x → Balanced x := by
    intro n x hn hw
    cases n with
    | none => rw [hw.1 rfl]; exact balanced_none _ (by simp) (by simp)
    | some m => exact tidy_balanced sp math m x (hn m rfl).1 (hw.2 m rfl) (hn m rfl).2 h1 h2
  have hba := hopt label a hl wa
  have hbi := hopt anchor i ha wi
  have hbb := tidy_balanced sp math content b hc.1 wb hc.2 h1 h2
  refine balanced_append _ _ ?_ ?_
  · have := balanced_name "caption" (a ++ b) (by decide) (by decide) (balanced_append _ _ hba hbb)
    simpa using this
  · split
    · exact balanced_none _ (by simp) (by simp)
    · have := balanced_append [' '] _ (balanced_none _ (by decide) (by decide)) (balanced_name "label" i (by decide) (by decide) hbi)
      simpa using this

/-! ### Panels -/

theorem stripMulti_through (p s r : Str) (hs : s ≠ []) (hn : '\n' ∉ s) (b : Bool) :
    Utils.stripMultiNewlines b (p ++ s ++ r) = Utils.stripMultiNewlines b p ++ s ++ Utils.stripMultiNewlines false r := by
  induction p generalizing b with
  | nil =>
    simp only [List.nil_append, Utils.stripMultiNewlines]
    induction s generalizing b with
    | nil => exact absurd rfl hs
    | cons c s ih =>
      have hc : c ≠ '\n' := fun h => hn (by simp [h])
      simp only [List.cons_append, Utils.stripMultiNewlines, if_neg hc]
      cases s with
      | nil => rfl
      | cons c' s => rw [ih (by simp) (fun h => hn (by simp [h])) false]
  | cons c p ih =>
    simp only [List.cons_append, Utils.stripMultiNewlines]
    split
    · split
      · rw [ih]
      · rw [ih]; simp
    · rw [ih]; simp

theorem inOrder_stripMulti (ts : List Str) (x : Str) (h : InOrder ts x) (hn : ∀ t ∈ ts, '\n' ∉ t) (b : Bool) :
    InOrder ts (Utils.stripMultiNewlines b x) := by
  induction h generalizing b with
  | nil g => exact .nil _
  | cons g s r ts hr ih =>
    by_cases hs : s = []
    · subst hs
      simp only [List.append_nil]
      have : InOrder ts (g ++ r) := by simpa using hr.more g []
      -- the rest is in order after anything
      have key : ∀ (g : Str) (b : Bool), InOrder ts (Utils.stripMultiNewlines b (g ++ r)) := by
        intro g
        induction g with
        | nil => intro b; exact ih (fun t ht => hn t (by simp [ht])) b
        | cons c g ihg =>
          intro b
          simp only [List.cons_append, Utils.stripMultiNewlines]
          split
          · split
            · exact ihg _
            · simpa using (ihg true).more ['\n'] []
          · simpa using (ihg false).more [c] []
      have := InOrder.cons [] [] _ ts (key g b)
      simpa using this
    · rw [stripMulti_through g s r hs (hn s (by simp)) b]
      exact .cons _ _ _ _ (ih (fun t ht => hn t (by simp [ht])) false)

theorem strip_inner (sp : Char → Bool) (m : Str) (c e : Char) (m' : Str) (h1 : sp '\n' = true) (hc : sp c = false) (he : sp e = false)
    (hm : m = c :: m') (hl : m.getLast? = some e) : strip sp ('\n' :: m ++ ['\n']) = m := by
  refine trimmed_unique sp ('\n' :: m ++ ['\n']) _ _ (strip_trimmed sp _) ⟨['\n'], ['\n'], rfl, by simp [h1], by simp [h1], ?_, ?_⟩
  · intro a ha
    rw [hm] at ha
    simp only [List.head?_cons, Option.some.injEq] at ha
    rw [← ha]; exact hc
  · intro a ha
    rw [hl, Option.some.injEq] at ha
    rw [← ha]; exact he

theorem panel_text (sp : Char → Bool) (h1 : sp '\n' = true) (h2 : sp '\\' = false) (h3 : sp '}' = false) (w y : Str) :
    strip sp (Utils.stripMultiNewlines false
      ("\n\\begin{".toList ++ "panel".toList ++ "}".toList ++ ("{".toList ++ w ++ "}".toList) ++ y ++ "\\end{".toList ++ "panel".toList ++ "}\n".toList)) =
    "\\begin{panel}{".toList ++ Utils.stripMultiNewlines false (w ++ "}".toList ++ y) ++ "\\end{panel}".toList := by
  have e1 : "\n\\begin{".toList ++ "panel".toList ++ "}".toList ++ ("{".toList ++ w ++ "}".toList) ++ y ++ "\\end{".toList ++ "panel".toList ++ "}\n".toList =
      ['\n'] ++ "\\begin{panel}{".toList ++ ((w ++ "}".toList ++ y) ++ "\\end{panel}".toList ++ ['\n']) := by simp
  rw [e1, stripMulti_through _ _ _ (by decide) (by decide), stripMulti_through _ _ _ (by decide) (by decide)]
  have e2 : Utils.stripMultiNewlines false ['\n'] = ['\n'] := rfl
  rw [e2]
  generalize Utils.stripMultiNewlines false (w ++ "}".toList ++ y) = z
  have := strip_inner sp ("\\begin{panel}{".toList ++ z ++ "\\end{panel}".toList) '\\' '}' ("begin{panel}{".toList ++ z ++ "\\end{panel}".toList) h1 h2 h3
    (by simp) (by rw [List.getLast?_append]; rfl)
  simpa using this

theorem textwidth_not_suffixed (a : Str) : ¬ Suffixed trackedTargets (a ++ "\\textwidth".toList) := by
  rintro ⟨t, ht, n, h⟩
  have h1 : (a ++ "\\textwidth".toList).getLast? = some 'h' := by rw [List.getLast?_append]; rfl
  rw [h] at h1
  simp only [trackedTargets, List.mem_cons, List.not_mem_nil, or_false] at ht
  rcases ht with rfl | rfl | rfl | rfl <;> (rw [List.getLast?_append] at h1; exact absurd (Option.some.inj h1) (by decide))

theorem panel_width (parse parsePct : Str → Option PyFloat) (clsStr : PType → Str) (d : ADict) (v : Str) (r : Option Nat)
    (hv : valueFor d "tex".toList "width".toList = some (.str v)) (hs : ¬ Suffixed trackedTargets v)
    (hp : percentage parse parsePct (.str v) = some r) :
    ∃ s, Media.Spec.TexWidth r v s ∧ ¬ Suffixed trackedTargets s ∧
      texPercentwidth parse parsePct clsStr trackedTargets d ".tex".toList true = some (d.set s (.pos .string)) := by
  have hg := Media.get_tex d "width".toList "tex".toList (by decide)
  rw [hv] at hg
  simp only [Option.map_some, stripAttr_not_suffixed _ _ hs] at hg
  have key : texPercentwidth parse parsePct clsStr trackedTargets d ".tex".toList true =
      some (d.set (match r.bind texWidth with | some f => texWidthStr f | none => v) (.pos .string)) := by
    unfold texPercentwidth
    have ht : ".tex".toList = '.' :: "tex".toList := rfl
    rw [ht, hg]; simp only [hp]
    cases r.bind texWidth <;> rfl
  refine ⟨_, Media.texWidth_text r v _ ?_ ?_, ?_, key⟩
  · rintro p c rfl hc
    have : (some p).bind texWidth = some (c - 1) := by
      show texWidth p = _
      rw [C31_same_windows, hc]; rfl
    rw [this]; rfl
  · intro h
    cases r with
    | none => rfl
    | some p =>
      have : (some p).bind texWidth = none := by
        show texWidth p = _
        rw [C31_same_windows, h p rfl]; rfl
      rw [this]
  · cases r.bind texWidth with
    | none => exact hs
    | some f => exact textwidth_not_suffixed _

theorem panel_args (d : ADict) (s o : Str) (hd : ∀ k t, (k, AVal.pos t) ∉ d) (hs : ¬ Suffixed trackedTargets s)
    (h : ArgsOf (d.set s (.pos .string)) [.string] o) : o = "{".toList ++ s ++ "}".toList := by
  obtain ⟨ws, hm, hp, rfl⟩ := h
  obtain ⟨w, rfl⟩ := List.length_eq_one_iff.1 (by simpa using congrArg List.length hm)
  simp only [List.map_cons, List.map_nil, List.cons.injEq, and_true] at hm
  obtain ⟨x, hx, hx'⟩ := hp w (by simp)
  rw [hm] at hx
  have hws : w.1 ++ x = s := by
    rcases mem_set hx with h1 | h1
    · exact (Prod.mk.inj h1).1
    · exact absurd h1 (hd _ _)
  have hx0 : x = [] := by
    rcases hx' with h1 | ⟨T, hT, h1⟩
    · exact h1
    · exact absurd ⟨T, hT, w.1, by rw [← hws, h1]⟩ hs
  rw [hx0, List.append_nil] at hws
  simp [hws]

theorem panelTex_ok (sp : Char → Bool) (h1 : sp '\n' = true) (h2 : sp '\\' = false) (h3 : sp '}' = false)
    (parse parsePct : Str → Option PyFloat) (clsStr : PType → Str) (d : ADict) (content : Node) (math : Bool) (out : Str)
    (hc : Sayable content) (hd : ∀ k t, (k, AVal.pos t) ∉ d)
    (hw : ∀ v, valueFor d "tex".toList "width".toList = some (.str v) → ¬ Suffixed trackedTargets v)
    (h : panelTex sp parse parsePct clsStr d content math = .ok out) :
    ∃ v r w, valueFor d "tex".toList "width".toList = some (.str v) ∧ percentage parse parsePct (.str v) = some r ∧
      Media.Spec.TexWidth r v w ∧ PanelWritten sp math w content out ∧ Flat leaves (some math) content := by
  have hg := Media.get_tex d "width".toList "tex".toList (by decide)
  have ht : ".tex".toList = '.' :: "tex".toList := rfl
  have hval : ∀ t, valueFor d "tex".toList "width".toList ≠ some (.pos t) := by
    intro t hv
    unfold valueFor at hv
    split at hv
    · rename_i h1
      rw [Option.some.injEq] at hv; subst hv
      exact hd _ _ (Dict.mem_of_get? _ _ _ h1)
    · exact hd _ _ (Dict.mem_of_get? _ _ _ hv)
  unfold panelTex at h
  cases hv : valueFor d "tex".toList "width".toList with
  | none =>
    rw [hv] at hg
    rw [ht, (C31_no_width parse parsePct clsStr trackedTargets d _ true hg).2] at h
    obtain ⟨x, hx, h⟩ := bind_ok h
    obtain ⟨y, hy, _⟩ := map_ok h
    obtain ⟨k, hk⟩ := ((env_one "panel".toList d x (by rfl) (by rfl)).1 y hy).1
    exact absurd hk (hd _ _)
  | some a =>
    cases a with
    | pos t => exact absurd hv (hval t)
    | str v =>
      have hs := hw v hv
      cases hp : percentage parse parsePct (.str v) with
      | none =>
        rw [hv] at hg
        simp only [Option.map_some, stripAttr_not_suffixed _ _ hs] at hg
        rw [ht, ((C31_errors parse parsePct clsStr trackedTargets d _ v hg).1 hp).2 true] at h
        simp at h
      | some r =>
        obtain ⟨s, hs1, hs2, hs3⟩ := panel_width parse parsePct clsStr d v r hv hs hp
        rw [hs3] at h
        obtain ⟨x, hx, h⟩ := bind_ok h
        obtain ⟨y, hy, hout⟩ := map_ok h
        obtain ⟨_, o, y', ho, hl, rfl⟩ := (env_one "panel".toList _ x (by rfl) (by rfl)).1 y hy
        rw [panel_args d s o hd hs2 ho, panel_text sp h1 h2 h3] at hout
        obtain ⟨hwr, hfl⟩ := written sp math content x hc hx
        exact ⟨v, r, s, rfl, hp, hs1, ⟨x, y', _, hwr, hl, (Utils.C57_newlines _ _).2 rfl, hout⟩, hfl⟩

theorem set_mem (d : ADict) (k : Str) (v : AVal) : (k, v) ∈ d.set k v := Dict.mem_of_get? _ _ _ (Dict.get?_set_self ..)

theorem panelTex_exists (sp : Char → Bool) (parse parsePct : Str → Option PyFloat) (clsStr : PType → Str) (d : ADict)
    (content : Node) (math : Bool) (v : Str) (r : Option Nat)
    (hv : valueFor d "tex".toList "width".toList = some (.str v)) (hs : ¬ Suffixed trackedTargets v)
    (hp : percentage parse parsePct (.str v) = some r) (hf : Flat leaves (some math) content) :
    ∃ out, panelTex sp parse parsePct clsStr d content math = .ok out := by
  obtain ⟨s, _, _, hs3⟩ := panel_width parse parsePct clsStr d v r hv hs hp
  obtain ⟨x, hx⟩ := flat_ok sp math content hf
  obtain ⟨y, hy⟩ := (env_one "panel".toList (d.set s (.pos .string)) x (by rfl) (by rfl)).2 ⟨s, set_mem ..⟩
  unfold panelTex
  rw [hs3]
  exact ⟨strip sp (Utils.stripMultiNewlines false y), by simp only [hx, Except.bind, hy, Except.map]⟩

theorem panel_inOrder (sp : Char → Bool) (math : Bool) (w : Str) (content : Node) (out : Str) (hs : Sayable content)
    (h : PanelWritten sp math w content out) (ts : List Str) (ht : HasTexts sp true content ts) (hn : ∀ t ∈ ts, '\n' ∉ t) :
    InOrder ts out := by
  obtain ⟨x, y, z, hx, hl, hz, rfl⟩ := h
  obtain ⟨us, hu, ho⟩ := written_texts sp math content x hs hx
  rw [texts_unique sp true content ts us ht hu] at hn ⊢
  have h1 := onLines_inOrder _ _ _ hl ho
  have h2 := inOrder_stripMulti us (w ++ "}".toList ++ y) (by simpa using h1.more (w ++ "}".toList) []) hn false
  rw [(Utils.C57_newlines _ _).1 hz] at h2
  exact h2.more _ _

/-! ### Braces of panels -/

theorem stripMulti_braces (s : Str) (b : Bool) :
    (Utils.stripMultiNewlines b s).filter (fun c => c = '{' || c = '}') = s.filter fun c => c = '{' || c = '}' := by
  induction s generalizing b with
  | nil => rfl
  | cons c s ih =>
    simp only [Utils.stripMultiNewlines]
    split
    · rename_i hc
      subst hc
      split
      · rw [ih]; simp
      · rw [List.filter_cons, ih]; simp
    · rw [List.filter_cons, ih, List.filter_cons]

theorem prefix_filter (p : Char → Bool) (x q : Str) (h : q <+: x.filter p) : ∃ y, y <+: x ∧ y.filter p = q := by
  induction x generalizing q with
  | nil => exact ⟨[], List.nil_prefix, by simpa using (List.prefix_nil.1 h).symm⟩
  | cons c x ih =>
    rw [List.filter_cons] at h
    split at h
    · rename_i hc
      cases q with
      | nil => exact ⟨[], List.nil_prefix, rfl⟩
      | cons e q =>
        rw [List.cons_prefix_cons] at h
        obtain ⟨y, hy, rfl⟩ := ih q h.2
        exact ⟨c :: y, by simpa using hy, by simp [List.filter_cons, hc, h.1]⟩
    · rename_i hc
      obtain ⟨y, hy, rfl⟩ := ih q h
      exact ⟨c :: y, by simpa using hy, by simp [List.filter_cons, hc]⟩

theorem balanced_filter (x y : Str) (h : x.filter (fun c => c = '{' || c = '}') = y.filter fun c => c = '{' || c = '}')
    (hx : Balanced x) : Balanced y := by
  have hc : ∀ (z : Str) (e : Char), (e = '{' ∨ e = '}') → (z.filter fun c => c = '{' || c = '}').count e = z.count e := by
    intro z e he
    refine List.count_filter ?_
    rcases he with rfl | rfl <;> decide
  refine ⟨?_, ?_⟩
  · rw [← hc y '{' (.inl rfl), ← hc y '}' (.inr rfl), ← h, hc x _ (.inl rfl), hc x _ (.inr rfl)]
    exact hx.1
  · intro p hp
    have h1 : p.filter (fun c => c = '{' || c = '}') <+: x.filter fun c => c = '{' || c = '}' := by
      rw [h]
      obtain ⟨r, rfl⟩ := hp
      simp
    obtain ⟨q, hq, hq'⟩ := prefix_filter _ _ _ h1
    have := hx.2 q hq
    rw [← hc q _ (.inl rfl), ← hc q _ (.inr rfl), hq', hc p _ (.inl rfl), hc p _ (.inr rfl)] at this
    exact this

theorem panel_balanced (sp : Char → Bool) (h1 : sp '{' = false) (h2 : sp '}' = false) (math : Bool) (w : Str) (content : Node)
    (out : Str) (hw : '{' ∉ w ∧ '}' ∉ w) (hs : Sayable content) (ht : Tidy sp content) (h : PanelWritten sp math w content out) :
    Balanced out := by
  obtain ⟨x, y, z, hx, hl, hz, rfl⟩ := h
  have hb := balanced_onLines _ _ hl (tidy_balanced sp math content x hs hx ht h1 h2)
  have := balanced_environment "panel" ('{' :: w ++ ['}']) y (by decide) (by decide) (balanced_wrap _ (balanced_none _ hw.1 hw.2)) hb
  refine balanced_filter _ _ ?_ this
  rw [← (Utils.C57_newlines _ _).1 hz]
  simp only [List.filter_append, stripMulti_braces]
  simp

theorem texWidth_braces (r : Option Nat) (v w : Str) (h : Media.Spec.TexWidth r v w) (hv : '{' ∉ v ∧ '}' ∉ v) : '{' ∉ w ∧ '}' ∉ w := by
  by_cases hc : ∃ c, Media.Spec.PartFor r c
  · obtain ⟨c, hc⟩ := hc
    rw [h.1 c hc]
    obtain ⟨p, lo, hi, _, hm, _⟩ := hc
    simp only [Media.Spec.widths, List.mem_cons, Prod.mk.injEq, List.not_mem_nil, or_false] at hm
    rcases hm with ⟨rfl, _⟩ | ⟨rfl, _⟩ | ⟨rfl, _⟩ | ⟨rfl, _⟩ | ⟨rfl, _⟩ | ⟨rfl, _⟩ <;> decide
  · rw [h.2 fun c hc' => hc ⟨c, hc'⟩]
    exact hv

end Verif.Composite
