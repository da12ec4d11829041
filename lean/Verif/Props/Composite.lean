import Verif.Lemmas.CompositeHtml
import Verif.Props.ListTag
import Verif.Props.Data
import Verif.Props.Render

/-!
# C64: captions, tables, lists and panels in trees

The theorems are about captions, tables, lists and panels whose parts are any trees (`Verif.Model.Composite`).
-/

set_option linter.unusedSimpArgs false
set_option linter.unusedVariables false

namespace Verif.Composite

open Verif Verif.Attrs Verif.Attrs.Spec Verif.Formats Verif.Render Verif.Render.Spec Verif.Composite.Spec Verif.Parser.Spec

/-! ### Captions -/

/-- **C64**. A caption in LaTeX is its label and its content in a command, with the label's anchor after it. Their texts are in
it in this order. -/
theorem C64_caption_tex (sp : Char → Bool) (d : ADict) (label : Option Node) (content : Node) (anchor : Option Node) (math : Bool)
    (out : Str) (h1 : ∀ l, label = some l → Sayable l) (h2 : Sayable content) (h3 : ∀ i, anchor = some i → Sayable i)
    (h : captionTex sp d label content anchor math = .ok out) :
    CaptionWritten sp math label content anchor out ∧
    ∀ ts, HasTexts sp true (.list (label.toList ++ [content] ++ anchor.toList)) ts → InOrder ts out := by
  have hw := (captionTex_ok sp d label content anchor math out h1 h2 h3 h).1
  refine ⟨hw, ?_⟩
  intro ts ht
  obtain ⟨a, b, i, wa, wb, wi, rfl⟩ := hw
  obtain ⟨t1, t2, ht1, ht2, rfl⟩ := hasTexts_split _ _ _ _ _ ht
  obtain ⟨t0, t1', ht0, ht1', rfl⟩ := hasTexts_split _ _ _ _ _ ht1
  have o1 := writtenOpt_inOrder sp math label a h1 wa t0 ht0
  have o3 := writtenOpt_inOrder sp math anchor i h3 wi t2 ht2
  have o2 : InOrder t1' b := by
    refine writtenOpt_inOrder sp math (some content) b ?_ ⟨by simp, ?_⟩ t1' ht1'
    · rintro m hm; rw [← Option.some.inj hm]; exact h2
    · rintro m hm; rw [← Option.some.inj hm]; exact wb
  have o3' : InOrder t2 ("}".toList ++ (if anchor = none then [] else " \\label{".toList ++ i ++ "}".toList)) := by
    by_cases ha : anchor = none
    · subst ha
      have : t2 = [] := by cases ht2; rfl
      subst this
      exact .nil _
    · rw [if_neg ha]
      have := o3.more ("}".toList ++ " \\label{".toList) "}".toList
      simp only [List.append_assoc] at this ⊢
      exact this
  have := ((o1.append o2).append o3').more "\\caption{".toList []
  simp only [List.append_assoc, List.append_nil] at this ⊢
  exact this

/-- **C64**. There is LaTeX for a caption exactly if there is for each of its parts. -/
theorem C64_caption_renders (sp : Char → Bool) (d : ADict) (label : Option Node) (content : Node) (anchor : Option Node) (math : Bool)
    (h1 : ∀ l, label = some l → Sayable l) (h2 : Sayable content) (h3 : ∀ i, anchor = some i → Sayable i) :
    (∃ out, captionTex sp d label content anchor math = .ok out) ↔
      (∀ l, label = some l → Flat leaves (some math) l) ∧ Flat leaves (some math) content ∧
      ∀ i, anchor = some i → Flat leaves (some math) i :=
  ⟨fun ⟨out, h⟩ => (captionTex_ok sp d label content anchor math out h1 h2 h3 h).2,
   fun ⟨f1, f2, f3⟩ => captionTex_exists sp d label content anchor math f1 f2 f3⟩

/-- **C64**. The braces of a caption are balanced. -/
theorem C64_caption_balanced (sp : Char → Bool) (b1 : sp '{' = false) (b2 : sp '}' = false) (d : ADict) (label : Option Node)
    (content : Node) (anchor : Option Node) (math : Bool) (out : Str) (h1 : ∀ l, label = some l → Sayable l ∧ Tidy sp l)
    (h2 : Sayable content ∧ Tidy sp content) (h3 : ∀ i, anchor = some i → Sayable i ∧ Tidy sp i)
    (h : captionTex sp d label content anchor math = .ok out) : Balanced out :=
  caption_balanced sp b1 b2 math label content anchor out h1 h2 h3
    (captionTex_ok sp d label content anchor math out (fun l hl => (h1 l hl).1) h2.1 (fun i hi => (h3 i hi).1) h).1

/-- **C64**. A caption in html is an element with the label, and then the content. -/
theorem C64_caption_html (sp : Char → Bool) (lower : Str → Str) (hl : LowerFine lower) (name : String)
    (hname : name ∈ ["span", "figcaption", "caption"]) (d : ADict) (label : Option Node) (content : Node) (items : List Node)
    (hi : ItemsOf content items) :
    (∀ h, captionHtml sp lower name.toList d label content = .ok h → Shown sp lower (plain name d (label.toList ++ items)) [h]) ∧
    ((∃ h, captionHtml sp lower name.toList d label content = .ok h) ↔
      Flat [.supsub, .symbol] none (plain name d (label.toList ++ items)) ∧ AttrsFine lower (plain name d (label.toList ++ items))) := by
  have he : asList content = items := by
    cases hi with
    | list l => rfl
    | one n hn =>
      cases content with
      | list l => exact absurd ⟨l, rfl⟩ hn
      | _ => rfl
  have hln : lower name.toList = name.toList := by
    refine hl name ?_
    simp only [List.mem_cons, List.not_mem_nil, or_false] at hname
    rcases hname with rfl | rfl | rfl <;> decide
  unfold captionHtml
  rw [he]
  exact ⟨fun h hh => wrap_shown sp lower _ d _ h hln hh, wrap_renders sp lower _ d _ hln⟩

/-! ### Tables -/

/-- **C64**. A table in LaTeX is an environment with its items in order: its data are lines of cells, with as many columns as
there are, and the header between rules. The texts of the cells (with `\&` for `&`), and of the other items, are in it in
order. -/
theorem C64_table_tex (sp : Char → Bool) (k : Table) (d : ADict) (items : List Item) (out : Str) (hs : AllItems Sayable items)
    (h : tableTex sp k d items = .ok out) :
    TableWritten sp k items out ∧ ∀ ts, ItemTexts sp true items ts → InOrder ts out := by
  have hw := (tableTex_ok sp k d items out hs h).1
  refine ⟨hw, ?_⟩
  intro ts ht
  obtain ⟨e, x, y, _, hx, hy, rfl⟩ := hw
  have h1 := onLines_inOrder _ _ _ hy (items_inOrder sp items x hs hx ts ht)
  have := h1.more ("\n\\begin{".toList ++ e.toList ++ "}".toList) ("\\end{".toList ++ e.toList ++ "}\n".toList)
  simpa using this

/-- **C64**. There is LaTeX for exactly the tables with LaTeX for all their items, with a column in their data, and without a
list among other items. -/
theorem C64_table_renders (sp : Char → Bool) (k : Table) (d : ADict) (items : List Item) (hs : AllItems Sayable items) :
    (∃ out, tableTex sp k d items = .ok out) ↔
      AllItems (Flat leaves (some false)) items ∧ (∀ c, .data c ∈ items → c.cols ≠ 0) ∧
      ((∀ l, .node (.list l) ∉ items) ∨ ∃ l, items = [.node (.list l)] ∧ ∀ n ∈ l, IsStr n) := by
  have hiff : (∀ i ∈ items, ItemFine i) ↔ AllItems (Flat leaves (some false)) items ∧ ∀ c, .data c ∈ items → c.cols ≠ 0 := by
    constructor
    · intro h
      refine ⟨fun i hi => ⟨?_, ?_⟩, fun c hc => (h _ hc).1⟩
      · rintro n rfl; exact h _ hi
      · rintro c rfl; exact (h _ hi).2
    · rintro ⟨h1, h2⟩ i hi
      cases i with
      | data c => exact ⟨h2 c hi, (h1 _ hi).2 c rfl⟩
      | node n => exact (h1 _ hi).1 n rfl
  have hiff2 : (∀ i ∈ items, ∀ l, i ≠ .node (.list l)) ↔ ∀ l, .node (.list l) ∉ items :=
    ⟨fun h l hm => h _ hm l rfl, fun h i hi l he => h l (he ▸ hi)⟩
  constructor
  · rintro ⟨out, h⟩
    obtain ⟨_, h1, h2⟩ := tableTex_ok sp k d items out hs h
    exact ⟨(hiff.1 h1).1, (hiff.1 h1).2, h2.imp hiff2.1 id⟩
  · rintro ⟨h1, h2, h3⟩
    exact tableTex_exists sp k d items (hiff.2 ⟨h1, h2⟩) (h3.imp hiff2.2 id)

/-- **C64**. The braces of a table are balanced. -/
theorem C64_table_balanced (sp : Char → Bool) (b1 : sp '{' = false) (b2 : sp '}' = false) (k : Table) (d : ADict)
    (items : List Item) (out : Str) (hs : AllItems (fun n => Sayable n ∧ Tidy sp n) items)
    (h : tableTex sp k d items = .ok out) : Balanced out :=
  table_balanced sp b1 b2 k items out hs (tableTex_ok sp k d items out
    (fun i hi => ⟨fun n hn => ((hs i hi).1 n hn).1, fun c hc =>
      ⟨fun h hh n hn => (((hs i hi).2 c hc).1 h hh n hn).1, fun r hr n hn => (((hs i hi).2 c hc).2 r hr n hn).1⟩⟩) h).1

/-- **C64**. A table in html is an element with its class after that which is given, and in it the head and the body of its
data, with the cells in rows, and the other items, in order. -/
theorem C64_table_html (sp : Char → Bool) (lower : Str → Str) (hl : LowerFine lower) (k : Table) (d : ADict) (items : List Item)
    (hn : d.keys.Nodup) (hd : ∀ n, ∀ T ∈ trackedTargets, n ++ '.' :: T ∈ d.keys → ¬ Suffixed trackedTargets n) (h : Html)
    (hh : tableHtml sp lower k d items = .ok h) :
    ∃ d', TableAttrs k d d' ∧ Shown sp lower (plain "table" d' (itemsTree items)) [h] := by
  rw [tableHtml_eq sp lower hl] at hh
  obtain ⟨d', hd', hw⟩ := bind_ok hh
  exact ⟨d', tableAttrs_ok k d d' hn hd hd', wrap_shown sp lower _ d' _ h (hl "table" (by decide)) hw⟩

/-- **C64**. The texts of a table in html are those of the cells and the other items, in order. All its elements and attributes
are in the tables of the settings. -/
theorem C64_table_html_texts (sp : Char → Bool) (lower : Str → Str) (hl : LowerFine lower) (k : Table) (d : ADict)
    (items : List Item) (hs : AllItems Sound items) (h : Html) (hh : tableHtml sp lower k d items = .ok h) (ts : List Str)
    (ht : ItemTexts sp false items ts) : (htmlTexts h).filter (· ≠ []) = ts.filter (· ≠ []) ∧ AllAllowed h := by
  rw [tableHtml_eq sp lower hl] at hh
  obtain ⟨d', _, hw⟩ := bind_ok hh
  exact wrap_sound sp lower _ d' _ h (hl "table" (by decide)) (by simp only [Sound]; exact items_sound items hs) ts
    (items_texts sp items ts ht) hw

/-- **C64**. There is html for exactly the tables whose items have html, and whose class and id are not positional. -/
theorem C64_table_html_renders (sp : Char → Bool) (lower : Str → Str) (hl : LowerFine lower) (k : Table) (d : ADict)
    (items : List Item) (hn : d.keys.Nodup)
    (hd : ∀ n, ∀ T ∈ trackedTargets, n ++ '.' :: T ∈ d.keys → ¬ Suffixed trackedTargets n) :
    (∃ h, tableHtml sp lower k d items = .ok h) ↔
      Flat [.supsub, .symbol] none (.list (itemsTree items)) ∧ AttrsFine lower (.list (itemsTree items)) ∧
      ∀ a ∈ ["class".toList, "id".toList], ∀ t, valueFor d "html".toList a ≠ some (.pos t) := by
  have hal : allowedAttrs xhtmlArguments xhtmlOptionals "table".toList = ["id".toList, "class".toList] := by decide +kernel
  have hno : namesOf xhtmlArguments "table".toList = [] := by decide +kernel
  have hlt : lower "table".toList = "table".toList := hl "table" (by decide)
  have hid : ¬ Suffixed trackedTargets "id".toList := by
    rintro ⟨T, hT, n, he⟩
    have : '.' ∈ "id".toList := by rw [he]; simp
    revert this; decide
  have key : ∀ d', tableAttrs k d = .ok d' → ((∃ h, wrapHtml sp lower "table".toList d' (.list (itemsTree items)) = .ok h) ↔
      Flat [.supsub, .symbol] none (.list (itemsTree items)) ∧ AttrsFine lower (.list (itemsTree items)) ∧
      ∀ t, valueFor d "html".toList "id".toList ≠ some (.pos t)) := by
    intro d' hd'
    obtain ⟨ta, c, _, hc⟩ := tableAttrs_ok k d d' hn hd hd'
    have hcls : ∀ t, d'.get? "class".toList ≠ some (.pos t) := by
      rcases hc with ⟨_, h1⟩ | ⟨v, _, h1⟩ <;> (rw [h1]; simp)
    have hidv := ta "id".toList hid (by decide)
    rw [wrap_renders sp lower _ d' _ hlt]
    constructor
    · rintro ⟨f, a⟩
      simp only [Flat, AttrsFine] at f a
      refine ⟨by simpa only [Flat] using f.2.2, by simpa only [AttrsFine] using a.2.2, ?_⟩
      intro t
      have := (a.2.1 (by decide) (by decide) "table".toList (Or.inr ⟨by decide, hlt.symm⟩)).2.1 "id".toList
        (by rw [hal]; simp) (by decide) t
      rw [hidv] at this
      exact this
    · rintro ⟨f, a, hi⟩
      refine ⟨?_, ?_⟩
      · simp only [Flat] at f ⊢
        exact ⟨by simp, by simp, f⟩
      · simp only [AttrsFine] at a ⊢
        refine ⟨by simp, ?_, a⟩
        rintro _ _ name hname
        have : name = "table".toList := by
          rcases hname with ⟨s, hs, _⟩ | ⟨_, he⟩
          · simp [elements] at hs
          · rw [he, hlt]
        subst this
        rw [hno, hal]
        refine ⟨by simp, ?_, Or.inr (Or.inl hcls)⟩
        intro a ha hne t
        simp only [List.mem_cons, List.not_mem_nil, or_false] at ha
        rcases ha with rfl | rfl
        · rw [hidv]; exact hi t
        · exact absurd rfl hne
  rw [tableHtml_eq sp lower hl]
  constructor
  · rintro ⟨h, hh⟩
    obtain ⟨d', hd', hw⟩ := bind_ok hh
    obtain ⟨f, a, i⟩ := (key d' hd').1 ⟨h, hw⟩
    refine ⟨f, a, ?_⟩
    intro n hn' t
    simp only [List.mem_cons, List.not_mem_nil, or_false] at hn'
    rcases hn' with rfl | rfl
    · exact (tableAttrs_exists k d hn hd).1 ⟨d', hd'⟩ t
    · exact i t
  · rintro ⟨f, a, i⟩
    obtain ⟨d', hd'⟩ := (tableAttrs_exists k d hn hd).2 (i _ (by simp))
    obtain ⟨h, hw⟩ := (key d' hd').2 ⟨f, a, i _ (by simp)⟩
    exact ⟨h, by rw [hd']; exact hw⟩

/-- **C64**. The cells of rectangular data: those of the first row are the header unless there is none, and the others are the
rows, each with its content. -/
theorem C64_cells (content : Str → Node) (first : List Str) (rest : List (List Str)) (hf : first ≠ []) (hr : rest ≠ [])
    (hrect : ∀ r ∈ rest, r.length = first.length) :
    (first.Nodup → ∃ data, Data.load false (first :: rest) = .ok data ∧
      cellsOf content false data = ⟨first.length, some (first.map content), rest.map (·.map content)⟩) ∧
    (∃ data, Data.load true (first :: rest) = .ok data ∧
      cellsOf content true data = ⟨first.length, none, (first :: rest).map (·.map content)⟩) := by
  refine ⟨?_, ?_⟩
  · intro hn
    obtain ⟨data, h1, h2, h3, h4⟩ := Data.C42_header_rectangular first rest hf hr hn hrect
    refine ⟨data, h1, ?_⟩
    have h5 : data.length = first.length := Option.some.inj h4
    simp [cellsOf, h2, h3, h5, Data.showKey]
  · obtain ⟨data, h1, h2, h3⟩ := Data.C42_noheader_rectangular first rest hf hr hrect
    refine ⟨data, h1, ?_⟩
    have h5 : data.length = first.length := Option.some.inj h3
    simp [cellsOf, h2, h5]

/-- **C64**. The text with a letter for each column is one positional attribute. -/
theorem C64_columns (isWord isSpace : Char → Bool) (hc : Classes isWord isSpace) (hl : isSpace 'l' = false) (posType : Str → PType)
    (n : Nat) (hp : posType (List.replicate n 'l') = .string) :
    Attrs.load trackedTargets posType isWord isSpace (List.replicate n 'l') = columns n := by
  unfold columns
  by_cases hn : n = 0
  · subst hn; rfl
  · rw [if_neg hn]
    have hnd : '.' ∉ List.replicate n 'l' := by
      intro h; rw [List.mem_replicate] at h; exact absurd h.2 (by decide)
    have hns : ¬ Suffixed trackedTargets (List.replicate n 'l') := by
      rintro ⟨T, _, m, he⟩
      exact hnd (by rw [he]; simp)
    have := C05_html_round_trip_partial isWord isSpace hc trackedTargets posType [(List.replicate n 'l', .pos .string)]
      (by simp [Dict.keys]) (by
        intro e he
        rw [List.mem_singleton] at he
        subst he
        refine ⟨by simp [hn], ?_, ?_⟩
        · intro c hc'
          rw [List.mem_replicate] at hc'
          rw [hc'.2]
          exact ⟨hl, by decide⟩
        · rintro m (⟨T, hT, he⟩ | ⟨_, he⟩)
          · exact absurd ⟨T, hT, m, he⟩ hns
          · rw [he, hp])
    simpa [Attrs.html, List.intercalate] using this

/-! ### Lists -/

/-- **C64**. A list in LaTeX is an environment with its items in order, each with one mark more than its level. There is LaTeX
for it exactly if there is for each item. -/
theorem C64_list_tex (sp : Char → Bool) (items : List (Nat × Node)) (math : Bool) (hs : ∀ e ∈ items, Sayable e.2) :
    (∀ out, listTex sp items math = .ok out → ListWritten sp math items out ∧
      ∀ ts, HasTexts sp true (.list (items.map (·.2))) ts → InOrder ts out) ∧
    ((∃ out, listTex sp items math = .ok out) ↔ ∀ e ∈ items, Flat leaves (some math) e.2) := by
  refine ⟨?_, ?_⟩
  · intro out h
    obtain ⟨x, hx, h⟩ := bind_ok h
    obtain ⟨y, hy, he⟩ := env_easylist x
    rw [he, Except.ok.injEq] at h
    have hb := (listItemsTex_ok sp math items x hs hx).1
    refine ⟨⟨x, y, hb, hy, h.symm⟩, ?_⟩
    intro ts ht
    rw [← h]
    exact (onLines_inOrder _ _ _ hy (bullets_inOrder sp math items x hs hb ts ht)).more _ _
  · constructor
    · rintro ⟨out, h⟩
      obtain ⟨x, hx, _⟩ := bind_ok h
      exact (listItemsTex_ok sp math items x hs hx).2
    · intro h
      obtain ⟨x, hx⟩ := listItemsTex_exists sp math items h
      obtain ⟨y, _, he⟩ := env_easylist x
      exact ⟨_, by unfold listTex; rw [hx]; exact he⟩

/-- **C64**. The braces of a list are balanced. -/
theorem C64_list_balanced (sp : Char → Bool) (b1 : sp '{' = false) (b2 : sp '}' = false) (items : List (Nat × Node)) (math : Bool)
    (out : Str) (hs : ∀ e ∈ items, Sayable e.2 ∧ Tidy sp e.2) (h : listTex sp items math = .ok out) : Balanced out :=
  list_balanced sp b1 b2 math items out hs (((C64_list_tex sp items math fun e he => (hs e he).1).1 out h).1)

/-- **C64**. A list in html is an element with an element for each item, in order. If no level is skipped, an item is as many
lists deep as its level. -/
theorem C64_list_html (sp : Char → Bool) (lower : Str → Str) (hl : LowerFine lower) (ordered : Bool) (items : List (Nat × Node)) :
    ∃ ns : List (ListTag.Node Node), (ListTag.Node.items 0 ns).map (·.2) = items.map (·.2) ∧
      (ListTag.WellNested 0 items → ListTag.Node.items 0 ns = items) ∧
      (∀ h, listHtml sp lower ordered items = .ok h →
        Shown sp lower (plain (if ordered then "ol" else "ul") [] (listTree (if ordered then "ol" else "ul") ns)) [h] ∧
        (SoundAll (items.map (·.2)) → AllAllowed h ∧ ∀ ts, HasTexts sp false (.list (items.map (·.2))) ts →
          (htmlTexts h).filter (· ≠ []) = ts.filter (· ≠ []))) ∧
      ((∃ h, listHtml sp lower ordered items = .ok h) ↔
        Flat [.supsub, .symbol] none (plain (if ordered then "ol" else "ul") [] (listTree (if ordered then "ol" else "ul") ns)) ∧
        AttrsFine lower (plain (if ordered then "ol" else "ul") [] (listTree (if ordered then "ol" else "ul") ns))) := by
  have hn : listName ordered = (if ordered then "ol" else "ul").toList := by cases ordered <;> rfl
  have hln : lower (if ordered then "ol" else "ul").toList = (if ordered then "ol" else "ul").toList := by
    cases ordered
    · exact hl "ul" (by decide)
    · exact hl "ol" (by decide)
  have hord := ListTag.C27_html_order items
  refine ⟨ListTag.renderList items, hord, ListTag.C27_html_depth_partial items, ?_, ?_⟩
  · intro h hh
    unfold listHtml at hh
    rw [hn, listNodes_eq] at hh
    refine ⟨wrap_shown sp lower _ [] _ h hln hh, ?_⟩
    intro hs
    have hs' : Sound (.list (listTree (if ordered then "ol" else "ul") (ListTag.renderList items))) := by
      simp only [Sound]
      refine list_sound _ _ ?_
      rw [hord]; exact hs
    refine ⟨?_, ?_⟩
    · have hs2 : Sound (plain (if ordered then "ol" else "ul") [] (listTree (if ordered then "ol" else "ul") (ListTag.renderList items))) := by
        simp only [plain, Sound]
        simpa only [Sound] using hs'
      exact (shown_allowed sp lower _ _ hs2 (wrap_shown sp lower _ [] _ h hln hh)).1
    · intro ts ht
      rw [← hord] at ht
      exact (wrap_sound sp lower _ [] _ h hln hs' ts (list_texts sp false _ _ ts ht) hh).1
  · unfold listHtml
    rw [hn, listNodes_eq]
    exact wrap_renders sp lower _ [] _ hln

/-! ### Panels -/

/-- **C64**. A panel in LaTeX is an environment whose argument is the width: without positional attributes, and with a width. Its
newlines are single, and the texts without newlines are in it in order. -/
theorem C64_panel_tex (sp : Char → Bool) (h1 : sp '\n' = true) (h2 : sp '\\' = false) (h3 : sp '}' = false)
    (parse parsePct : Str → Option PyFloat) (clsStr : PType → Str) (d : ADict) (content : Node) (math : Bool) (out : Str)
    (hc : Sayable content) (hd : ∀ k t, (k, AVal.pos t) ∉ d)
    (hw : ∀ v, valueFor d "tex".toList "width".toList = some (.str v) → ¬ Suffixed trackedTargets v)
    (h : panelTex sp parse parsePct clsStr d content math = .ok out) :
    ∃ v r w, valueFor d "tex".toList "width".toList = some (.str v) ∧ percentage parse parsePct (.str v) = some r ∧
      Media.Spec.TexWidth r v w ∧ PanelWritten sp math w content out ∧
      ∀ ts, HasTexts sp true content ts → (∀ t ∈ ts, '\n' ∉ t) → InOrder ts out := by
  obtain ⟨v, r, w, a, b, c, e, _⟩ := panelTex_ok sp h1 h2 h3 parse parsePct clsStr d content math out hc hd hw h
  exact ⟨v, r, w, a, b, c, e, fun ts ht hn => panel_inOrder sp math w content out hc e ts ht hn⟩

/-- **C64**. There is LaTeX for exactly the panels with a width that is a number, and a content that has LaTeX. -/
theorem C64_panel_renders (sp : Char → Bool) (h1 : sp '\n' = true) (h2 : sp '\\' = false) (h3 : sp '}' = false)
    (parse parsePct : Str → Option PyFloat) (clsStr : PType → Str) (d : ADict) (content : Node) (math : Bool)
    (hc : Sayable content) (hd : ∀ k t, (k, AVal.pos t) ∉ d)
    (hw : ∀ v, valueFor d "tex".toList "width".toList = some (.str v) → ¬ Suffixed trackedTargets v) :
    (∃ out, panelTex sp parse parsePct clsStr d content math = .ok out) ↔
      Flat leaves (some math) content ∧
      ∃ v r, valueFor d "tex".toList "width".toList = some (.str v) ∧ percentage parse parsePct (.str v) = some r := by
  constructor
  · rintro ⟨out, h⟩
    obtain ⟨v, r, w, a, b, _, _, f⟩ := panelTex_ok sp h1 h2 h3 parse parsePct clsStr d content math out hc hd hw h
    exact ⟨f, v, r, a, b⟩
  · rintro ⟨f, v, r, hv, hp⟩
    exact panelTex_exists sp parse parsePct clsStr d content math v r hv (hw v hv) hp f

/-- **C64**. The braces of a panel are balanced, if its width has none. -/
theorem C64_panel_balanced (sp : Char → Bool) (h1 : sp '\n' = true) (h2 : sp '\\' = false) (h3 : sp '}' = false)
    (h4 : sp '{' = false) (parse parsePct : Str → Option PyFloat) (clsStr : PType → Str) (d : ADict) (content : Node) (math : Bool)
    (out : Str) (hc : Sayable content) (ht : Tidy sp content) (hd : ∀ k t, (k, AVal.pos t) ∉ d)
    (hw : ∀ v, valueFor d "tex".toList "width".toList = some (.str v) → ¬ Suffixed trackedTargets v ∧ '{' ∉ v ∧ '}' ∉ v)
    (h : panelTex sp parse parsePct clsStr d content math = .ok out) : Balanced out := by
  obtain ⟨v, r, w, a, _, c, e, _⟩ := panelTex_ok sp h1 h2 h3 parse parsePct clsStr d content math out hc hd
    (fun v hv => (hw v hv).1) h
  exact panel_balanced sp h4 h3 math w content out (texWidth_braces r v w c (hw v a).2) hc ht e

/-- **C64**. A panel in html is an element `panel` around its content, with the class `panel` and that of the width. -/
theorem C64_panel_html (sp : Char → Bool) (lower : Str → Str) (hl : LowerFine lower) (parse parsePct : Str → Option PyFloat)
    (d : ADict) (content : Node) (t : Str) (ht : t ∈ ["html".toList, "xhtml".toList])
    (hw : ∀ w, valueFor d t "width".toList = some (.str w) → ¬ Suffixed trackedTargets w) :
    (∀ h, panelHtml sp lower parse parsePct d content ('.' :: t) = .ok h → ∃ d' c, Media.Spec.ImgClass parse parsePct
        (valueFor d t "width".toList) (some (.str "panel".toList)) c ∧ WithClass d d' c ∧
      Shown sp lower (.tag .generic "panel".toList d' content) [h]) ∧
    ((∃ w, valueFor d t "width".toList = some (.str w) ∧ percentage parse parsePct (.str w) = none) →
      panelHtml sp lower parse parsePct d content ('.' :: t) = .error .other) := by
  have hne : ∀ k, k ≠ "class".toList → (d.set "class".toList (.str "panel".toList)).get? k = d.get? k := by
    intro k hk
    rw [Dict.get?_set, if_neg (Ne.symm hk)]
  have hv : valueFor (d.set "class".toList (.str "panel".toList)) t "width".toList = valueFor d t "width".toList := by
    unfold valueFor
    rw [hne ("width".toList ++ '.' :: t) ?_, hne "width".toList (by decide)]
    intro he
    have := congrArg List.head? he
    exact absurd this (by simp)
  obtain ⟨w1, w2⟩ := Media.width_html parse parsePct (d.set "class".toList (.str "panel".toList)) t ht (by rw [hv]; exact hw)
  rw [hv] at w1 w2
  refine ⟨?_, ?_⟩
  · intro h hh
    unfold panelHtml at hh
    cases hx : xhtmlPercentwidth parse parsePct trackedTargets (d.set "class".toList (.str "panel".toList)) ('.' :: t) with
    | none => rw [hx] at hh; simp at hh
    | some d' =>
      rw [hx] at hh
      obtain ⟨c1, c2⟩ := w1 d' hx
      rw [Dict.get?_set_self] at c1
      refine ⟨d', _, c1, ?_, wrap_shown sp lower _ d' _ h (hl "panel" (by decide)) hh⟩
      intro k
      by_cases hk : k = "class".toList
      · rw [if_pos hk, hk]
      · rw [if_neg hk, c2 k hk, hne k hk]
  · rintro ⟨w, h1, h2⟩
    unfold panelHtml
    rw [w2.2 ⟨w, h1, Or.inl h2⟩]

/-! ### In trees -/

/-- **C64**. Captions, tables, lists and panels can be anywhere in a tree: what C52 and C53 ask of tags holds for them, if it
holds for their parts. -/
theorem C64_in_trees (sp : Char → Bool) (h1 : sp '\n' = true) (h2 : sp '\\' = false) (h3 : sp '}' = false) (lower : Str → Str)
    (hl : LowerFine lower) (d : ADict) (texts : Bool → List Str) :
    (∀ (name : String) label content anchor, name ∈ ["span", "figcaption", "caption"] →
      (∀ l, label = some l → Sayable l ∧ Sound l) → Sayable content ∧ Sound content →
      (∀ i, anchor = some i → Sayable i) → HasTexts sp true (.list (label.toList ++ [content] ++ anchor.toList)) (texts true) →
      HasTexts sp false (.list (label.toList ++ [content])) (texts false) →
      Sayable (captionNode sp lower name.toList d label content anchor texts) ∧
      Sound (captionNode sp lower name.toList d label content anchor texts)) ∧
    (∀ k items, AllItems (fun n => Sayable n ∧ Sound n) items → ItemTexts sp true items (texts true) →
      ItemTexts sp false items (texts false) →
      Sayable (tableNode sp lower k d items texts) ∧ Sound (tableNode sp lower k d items texts)) ∧
    (∀ ordered items, (∀ e ∈ items, Sayable e.2 ∧ Sound e.2) →
      HasTexts sp true (.list (items.map Prod.snd)) (texts true) → HasTexts sp false (.list (items.map Prod.snd)) (texts false) →
      Sayable (listTagNode sp lower ordered items texts) ∧ Sound (listTagNode sp lower ordered items texts)) ∧
    (∀ parse parsePct clsStr content t, t ∈ ["html".toList, "xhtml".toList] → (∀ k t, (k, AVal.pos t) ∉ d) →
      (∀ T ∈ ["tex".toList, t], ∀ v, valueFor d T "width".toList = some (.str v) → ¬ Suffixed trackedTargets v) →
      Sayable content ∧ Sound content → HasTexts sp true content (texts true) → (∀ t ∈ texts true, '\n' ∉ t) →
      HasTexts sp false content (texts false) →
      Sayable (panelNode sp lower parse parsePct clsStr d content ('.' :: t) texts) ∧
      Sound (panelNode sp lower parse parsePct clsStr d content ('.' :: t) texts)) := by
  refine ⟨?_, ?_, ?_, ?_⟩
  · intro name label content anchor hname hla hco han ht hf
    refine ⟨?_, ?_⟩
    · intro m x hx
      exact (C64_caption_tex sp d label content anchor m x (fun l h => (hla l h).1) hco.1 han hx).2 _ ht
    · intro h hh
      have hln : lower name.toList = name.toList := by
        refine hl name ?_
        simp only [List.mem_cons, List.not_mem_nil, or_false] at hname
        rcases hname with rfl | rfl | rfl <;> decide
      refine wrap_sound sp lower _ d _ h hln ?_ _ ?_ hh
      · simp only [Sound]
        rw [soundAll_append]
        refine ⟨?_, ?_⟩
        · rw [soundAll_iff]
          intro n hn
          exact (hla n (by simpa using hn)).2
        · cases content with
          | list l => simpa only [asList, Sound] using hco.2
          | _ => simp only [asList, SoundAll]; exact ⟨hco.2, trivial⟩
      · obtain ⟨a, b, ha, hb, hab⟩ := hasTexts_split _ _ _ _ _ hf
        rw [hab]
        refine hasTexts_append _ _ _ _ _ _ ha ?_
        cases hb with
        | cons _ _ u v hu hv =>
          cases hv
          cases content with
          | list l => simpa only [asList, List.append_nil] using hu
          | _ => exact .cons _ _ _ _ hu .nil
  · intro k items hs ht hf
    refine ⟨?_, ?_⟩
    · intro m x hx
      refine (C64_table_tex sp k d items x ?_ hx).2 _ ht
      exact fun i hi => ⟨fun n hn => ((hs i hi).1 n hn).1, fun c hc =>
        ⟨fun h hh n hn => (((hs i hi).2 c hc).1 h hh n hn).1, fun r hr n hn => (((hs i hi).2 c hc).2 r hr n hn).1⟩⟩
    · intro h hh
      refine C64_table_html_texts sp lower hl k d items ?_ h hh _ hf
      exact fun i hi => ⟨fun n hn => ((hs i hi).1 n hn).2, fun c hc =>
        ⟨fun h hh n hn => (((hs i hi).2 c hc).1 h hh n hn).2, fun r hr n hn => (((hs i hi).2 c hc).2 r hr n hn).2⟩⟩
  · intro ordered items hs ht hf
    refine ⟨?_, ?_⟩
    · intro m x hx
      exact ((C64_list_tex sp items m fun e he => (hs e he).1).1 x hx).2 _ ht
    · intro h hh
      obtain ⟨ns, _, _, h3, _⟩ := C64_list_html sp lower hl ordered items
      have hso : SoundAll (items.map Prod.snd) := by
        rw [soundAll_iff]
        intro n hn
        obtain ⟨e, he, rfl⟩ := List.mem_map.1 hn
        exact (hs e he).2
      obtain ⟨a, b⟩ := (h3 h hh).2 hso
      exact ⟨b _ hf, a⟩
  · intro parse parsePct clsStr content t htm hd hw hc ht hn hf
    refine ⟨?_, ?_⟩
    · intro m x hx
      obtain ⟨_, _, _, _, _, _, _, h⟩ := C64_panel_tex sp h1 h2 h3 parse parsePct clsStr d content m x hc.1 hd
        (hw _ (by simp)) hx
      exact h _ ht hn
    · intro h hh
      obtain ⟨d', c, _, _, hsh⟩ := (C64_panel_html sp lower hl parse parsePct d content t htm (hw _ (by simp))).1 h hh
      have hso : Sound (.tag .generic "panel".toList d' content) := by simp only [Sound]; exact hc.2
      have a := shown_texts sp lower _ _ hso hsh _ (.tag _ _ _ _ _ (by decide) hf)
      have b := shown_allowed sp lower _ _ hso hsh
      simp only [htmlTextsAll, List.append_nil] at a
      exact ⟨a, b.1⟩

/-- **C64**. In a tree they are rendered as on their own. -/
theorem C64_placed (sp : Char → Bool) (lower : Str → Str) (d : ADict) (texts : Bool → List Str) (name : Str) (label : Option Node)
    (content : Node) (anchor : Option Node) (k : Table) (items : List Item) (ordered : Bool) (bullets : List (Nat × Node))
    (parse parsePct : Str → Option PyFloat) (clsStr : PType → Str) (target : Str) (math : Bool) (out : Str) (h : Html) :
    ((texFmt sp math (captionNode sp lower name d label content anchor texts) = .ok out ↔
        captionTex sp d label content anchor math = .ok out) ∧
      (htmlFmt sp lower (captionNode sp lower name d label content anchor texts) = .ok [.elem (some h)] ↔
        captionHtml sp lower name d label content = .ok h)) ∧
    ((texFmt sp math (tableNode sp lower k d items texts) = .ok out ↔ tableTex sp k d items = .ok out) ∧
      (htmlFmt sp lower (tableNode sp lower k d items texts) = .ok [.elem (some h)] ↔ tableHtml sp lower k d items = .ok h)) ∧
    ((texFmt sp math (listTagNode sp lower ordered bullets texts) = .ok out ↔ listTex sp bullets math = .ok out) ∧
      (htmlFmt sp lower (listTagNode sp lower ordered bullets texts) = .ok [.elem (some h)] ↔
        listHtml sp lower ordered bullets = .ok h)) ∧
    (texFmt sp math (panelNode sp lower parse parsePct clsStr d content target texts) = .ok out ↔
        panelTex sp parse parsePct clsStr d content math = .ok out) ∧
      (htmlFmt sp lower (panelNode sp lower parse parsePct clsStr d content target texts) = .ok [.elem (some h)] ↔
        panelHtml sp lower parse parsePct d content target = .ok h) := by
  have hm : ∀ r : Except RErr Html, r.map (fun h => [Part.elem (some h)]) = .ok [.elem (some h)] ↔ r = .ok h := by
    intro r; cases r <;> simp [Except.map]
  refine ⟨⟨?_, ?_⟩, ⟨?_, ?_⟩, ⟨?_, ?_⟩, ?_, ?_⟩
  · simp only [captionNode, texFmt]
  · simp only [captionNode, htmlFmt]; exact hm _
  · simp only [tableNode, texFmt]
  · simp only [tableNode, htmlFmt]; exact hm _
  · simp only [listTagNode, texFmt]
  · simp only [listTagNode, htmlFmt]; exact hm _
  · simp only [panelNode, texFmt]
  · simp only [panelNode, htmlFmt]; exact hm _

/-! ### Findings and examples -/

/-- Finding: the attributes of a list are not in the html, and neither are they in the LaTeX. A caption and a table have
theirs. -/
theorem C64_list_attributes (sp : Char → Bool) (lower : Str → Str) (ordered : Bool) (items : List (Nat × Node)) (h : Html)
    (hh : listHtml sp lower ordered items = .ok h) : ∃ e kids, h = .elem e [] kids := by
  unfold listHtml wrapHtml at hh
  obtain ⟨ps, _, hw⟩ := bind_ok hh
  have hx : xhtmlTag trackedTargets (nameTable xhtmlArguments) (nameTable xhtmlOptionals) (listName ordered) [] none ps =
      .ok ⟨listName ordered, [], cleanParts ps⟩ := by cases ordered <;> rfl
  unfold element at hw
  rw [hx] at hw
  obtain ⟨kids, _, he⟩ := map_ok hw
  exact ⟨_, kids, he⟩

/-- Finding: a panel with a positional attribute has that as its width. -/
theorem C64_panel_positional :
    panelTex Render.space (fun _ => some (.fin 50)) (fun _ => some (.fin 50)) (fun _ => []) [("nolabel".toList, .pos .string),
      ("width".toList, .str "50%".toList)] (.str "a".toList) false = .ok "\\begin{panel}{nolabel}\na\n\\end{panel}".toList := by
  rfl

/-- Finding: a panel without a width has no LaTeX. -/
theorem C64_panel_no_width (parse parsePct : Str → Option PyFloat) (clsStr : PType → Str) (content : Node) (out : Str)
    (sp : Char → Bool) (math : Bool) : panelTex sp parse parsePct clsStr [] content math ≠ .ok out := by
  intro h
  unfold panelTex at h
  have : texPercentwidth parse parsePct clsStr trackedTargets [] ".tex".toList true = some [] := by
    have hg := Media.get_tex [] "width".toList "tex".toList (by decide)
    exact (C31_no_width parse parsePct clsStr trackedTargets [] _ true hg).2
  rw [this] at h
  obtain ⟨x, _, h⟩ := bind_ok h
  obtain ⟨y, hy, _⟩ := map_ok h
  obtain ⟨⟨k, hk⟩, _⟩ := (env_one "panel".toList [] x (by rfl) (by rfl)).1 y hy
  simp at hk

/-- Finding: `&` is escaped in mathematics, and `\&` is escaped again. -/
theorem C64_escaped_again : rowTex Render.space [.str "a \\& b".toList] = .ok "a \\\\& b \\\\\n".toList := by rfl

def bold (s : String) : Node := .tag .bold "b".toList [] (.str s.toList)

def prices : Cells := ⟨2, some [.str "name".toList, bold "price"], [[.str "R&D".toList, .str "5".toList], [.str "b".toList, .str "6".toList]]⟩

set_option maxRecDepth 20000 in
example : tableTex Render.space .margin [] [.data prices, .node (.str "note".toList)] =
    .ok "\n\\begin{margintable}\n\\begin{tabular}{ll}\n\\toprule\nname & \\textbf{price} \\\\\n\\midrule\nR\\&D & 5 \\\\\nb & 6 \\\\\n\\bottomrule\n\\end{tabular}\nnote\n\\end{margintable}\n".toList := by
  rfl

example : tableHtml Render.space id .full [("class".toList, .str "wide".toList)] [.data ⟨1, none, [[bold "x"]]⟩] =
    .ok (.elem "table".toList [("class".toList, "wide fulltable".toList)]
      [.elem "tbody".toList [] [.elem "tr".toList [] [.elem "td".toList [] [.elem "strong".toList [] [.text "x".toList]]]]]) := by
  rfl

example : AllItems (fun n => Sayable n ∧ Tidy Render.space n) [.data ⟨1, none, [[.str "x".toList]]⟩, .node (.str "note".toList)] := by
  have hstr : ∀ s : Str, '{' ∉ s → '}' ∉ s → Sayable (.str s) ∧ Tidy Render.space (.str s) := by
    intro s a b
    refine ⟨by simp only [Sayable], by simp only [NoBraces], ?_⟩
    intro ts ht t hm
    cases ht
    rw [List.mem_singleton.1 hm]
    exact balanced_none _ a b
  intro i hi
  simp only [List.mem_cons, List.not_mem_nil, or_false] at hi
  rcases hi with rfl | rfl
  · refine ⟨by simp, ?_⟩
    intro c hc
    cases hc
    refine ⟨by simp, ?_⟩
    intro r hr n hn
    simp only [List.mem_cons, List.not_mem_nil, or_false] at hr
    subst hr
    simp only [List.mem_cons, List.not_mem_nil, or_false] at hn
    subst hn
    exact hstr _ (by decide) (by decide)
  · refine ⟨?_, by simp⟩
    intro n hn
    cases hn
    exact hstr _ (by decide) (by decide)

example : LowerFine id := fun _ _ => rfl

example : listTex Render.space [(0, .str "a".toList), (1, bold "b")] false =
    .ok "\n\\begin{easylist}[itemize]\n§ a\n§§ \\textbf{b}\n\\end{easylist}\n".toList := by rfl

example : listHtml Render.space id true [(0, .str "a".toList), (1, bold "b")] =
    .ok (.elem "ol".toList [] [.elem "li".toList [] [.text "a".toList],
      .elem "ol".toList [] [.elem "li".toList [] [.elem "strong".toList [] [.text "b".toList]]]]) := by rfl

example : captionTex Render.space [] (some (.str "Fig. 1. ".toList)) (bold "A cat") (some (.str "fig:cat".toList)) false =
    .ok "\\caption{Fig. 1. \\textbf{A cat}} \\label{fig:cat}".toList := by rfl

example : captionHtml Render.space id "figcaption".toList [] (some (labelNode [] (.str "Fig. 1. ".toList))) (bold "A cat") =
    .ok (.elem "figcaption".toList [] [.elem "span".toList [("class".toList, "label".toList)] [.text "Fig. 1. ".toList],
      .elem "strong".toList [] [.text "A cat".toList]]) := by rfl

def fifty (s : Str) : Option PyFloat := if s = "50%".toList then some (.fin 50) else none

example : panelTex Render.space fifty fifty (fun _ => []) [("width".toList, .str "50%".toList)] (bold "a\n\nb") false =
    .ok "\\begin{panel}{0.49\\textwidth}\n\\textbf{a\nb}\n\\end{panel}".toList := by rfl

example : panelHtml Render.space id fifty fifty [("width".toList, .str "50%".toList)] (bold "a") ".html".toList =
    .ok (.elem "span".toList [("class".toList, "panel w50".toList)] [.elem "strong".toList [] [.text "a".toList]]) := by rfl

end Verif.Composite
