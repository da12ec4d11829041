import Verif.Lemmas.Refs
import Verif.Props.LabelText
import Verif.Props.Composite

/-!
# C66: headings, references and tables of contents show the texts of labels and lead to them
-/

namespace Verif.Refs

open Verif Verif.Typography Verif.Attrs Verif.Formats Verif.Render Verif.Render.Spec Verif.Labels Verif.Page Verif.Page.Spec Verif.Refs.Spec
open Verif.Composite (bind_ok map_ok)
open Verif.Parser (NoTag.nil)

variable {w : Doc}

/-! ### Headings -/

theorem heading_named : ∀ x ∈ headingElements, headingName x.1 = x.2.toList ∧
    (x.2.toList ∈ xhtmlArguments.keys ∨ x.2.toList ∈ xhtmlOptionals.keys) ∧ x.2.toList ≠ "p".toList ∧
    "id".toList ∈ allowedAttrs xhtmlArguments xhtmlOptionals x.2.toList ∧
    "class".toList ∈ allowedAttrs xhtmlArguments xhtmlOptionals x.2.toList ∧
    namesOf xhtmlArguments x.2.toList = [] := by decide +kernel

theorem span_class : "class".toList ∈ allowedAttrs xhtmlArguments xhtmlOptionals "span".toList := by decide +kernel

theorem label_ok (hc : Classes w.ch.sp w.ch.word) (hl : Lower w.ch.lower) {id : Str} {h : Html} (hh : labelHtml w id = .ok h) :
    ∃ s attrs kids, TextOf w id [] ".html" s ∧ h = .elem "span".toList attrs kids ∧
      (∀ k v, attrs.get? k = some v ↔ k = "class".toList ∧ v = "label".toList) ∧
      ∀ path ls, Reads w.ch.word w.ch.sp w.ch.lower s ls → (marks path h).filter (fun x => !w.ch.sp x.2) =
        placedIn w.ch.lower (fun c => !w.ch.sp c) (path ++ ["span".toList]) (typeset w.ch.lower (typo w.ch.sp w.ch.word) ls) := by
  unfold labelHtml at hh
  obtain ⟨s, hs, hh⟩ := bind_ok hh
  obtain ⟨c, hcn, hh⟩ := bind_ok hh
  obtain ⟨parts, hp, hh⟩ := bind_ok hh
  obtain ⟨attrs, kids, rfl, hk, ha⟩ := element_named span_named hh
  refine ⟨s, attrs, kids, other_ok hs, rfl, ?_, ?_⟩
  · intro k v
    rw [ha k v]
    constructor
    · rintro (⟨_, h⟩ | ⟨h, _⟩)
      · simp only [Dict.get?] at h
        by_cases hk : "class".toList = k
        · rw [if_pos hk] at h
          cases h
          exact ⟨hk.symm, rfl⟩
        · rw [if_neg hk] at h; cases h
      · exact absurd span_named h
    · rintro ⟨rfl, rfl⟩
      exact .inl ⟨span_class, rfl⟩
  · intro path ls hr
    rw [marks_elem _ (by decide)]
    exact content_marks hc hl hcn hp hk _ hr

/-- **C66**. A heading is an element for its level, with the identifier of the label as its `id` and the class of the tag.
In it there is an element `span` with the class `label` that shows the text of the label. -/
theorem C66_heading_html (hc : Classes w.ch.sp w.ch.word) (hl : Lower w.ch.lower) (level : LabelText.Level) (e : String)
    (he : (level, e) ∈ headingElements) (d : ADict) (id : Str) (h : Html) (hh : headingHtml w level d id = .ok h) :
    ∃ s attrs span kids, TextOf w id [] ".html" s ∧
      h = .elem e.toList attrs [.elem "span".toList span kids] ∧
      attrs.get? "id".toList = some id ∧
      (∀ c, attrs.get? "class".toList = some c ↔ d.get? "class".toList = some (.str c)) ∧
      (∀ k v, span.get? k = some v ↔ k = "class".toList ∧ v = "label".toList) ∧
      ShowsIn w.ch [e.toList, "span".toList] s h := by
  obtain ⟨h1, h2, h3, h4, h5, _⟩ := heading_named _ he
  simp only at h1 h2 h3 h4 h5
  unfold headingHtml at hh
  obtain ⟨l, hlb, hh⟩ := bind_ok hh
  rw [h1] at hh
  obtain ⟨s, span, skids, hs, rfl, hspan, hshow⟩ := label_ok hc hl hlb
  obtain ⟨attrs, kids, rfl, hk, ha⟩ := element_named h2 hh
  cases hk
  refine ⟨s, attrs, span, skids, hs, rfl, ?_, ?_, hspan, ?_⟩
  · exact attr_str ha _ _ h4 (by rw [Dict.get?_set, if_pos rfl])
  · intro c
    rw [ha]
    constructor
    · rintro (⟨_, h⟩ | ⟨h, _⟩)
      · rwa [Dict.get?_set, if_neg (by decide)] at h
      · exact absurd h2 h
    · intro h
      exact .inl ⟨h5, by rw [Dict.get?_set, if_neg (by decide)]; exact h⟩
  · intro ls hr
    rw [marks_elem _ h3, marksAll, marksAll, List.append_nil]
    exact hshow _ ls hr

/-- **C66**. A heading without positional attributes can be rendered if the text of its label can be. -/
theorem C66_heading_exists (level : LabelText.Level) (d : ADict) (id : Str) (hd : ∀ k t, d.get? k ≠ some (.pos t)) :
    (∃ h, headingHtml w level d id = .ok h) ↔ ∃ l, labelHtml w id = .ok l := by
  obtain ⟨e, he⟩ : ∃ e, (level, e) ∈ headingElements := by
    cases level
    · exact ⟨"h1", by decide⟩
    · exact ⟨"h1", by decide⟩
    · exact ⟨"h2", by decide⟩
    · exact ⟨"h3", by decide⟩
    · exact ⟨"h4", by decide⟩
    · exact ⟨"h5", by decide⟩
  obtain ⟨h1, _, _, _, _, h6⟩ := heading_named _ he
  unfold headingHtml
  constructor
  · rintro ⟨h, hh⟩
    obtain ⟨l, hlb, _⟩ := bind_ok hh
    exact ⟨l, hlb⟩
  · rintro ⟨l, hlb⟩
    rw [hlb, h1]
    refine element_exists _ _ _ [l] rfl ?_ ?_
    · rw [h6]; simp
    · intro a _ t h
      rw [Dict.get?_set] at h
      by_cases hk : "id".toList = a
      · rw [if_pos hk] at h; cases h
      · rw [if_neg hk] at h; exact hd a t h

theorem content_tex {ch : Chars} (hc : Classes ch.sp ch.word) (hl : Lower ch.lower) {s : Str} {c : Node} {math : Bool} {t : Str}
    (hs : tagContent ch s = .ok c) (ht : texFmt ch.sp math c = .ok t) : Writes ch s t := by
  intro ls hr hv
  obtain ⟨v, h1, h2, h3⟩ := content_reads (Q := Delimited) hc hl (fun _ _ => .inl (by simp)) hr hv
  rw [hs] at h1
  cases h1
  obtain ⟨us, hu, hio⟩ := C52_texts_partial ch.sp math _ t (sayable_good v h2) ht
  refine ⟨us, hio, ?_⟩
  refine (texts_words [] v us h2 hu).trans ?_
  rw [h3 _ _ gw_additive, kept, typeset, List.flatMap_map]
  rfl

theorem heading_cmd_id (level : LabelText.Level) (id text : Str) :
    Formats.texCmd trackedTargets (posTable texCmdArguments) (nameTable texCmdOptionals)
      level.name [("id".toList, .str id)] (some text) = .ok ('\\' :: level.name ++ '{' :: text ++ "}".toList) := by
  cases level <;> rfl

/-- **C66**. In LaTeX a heading sets the counter of its level so that LaTeX counts to the number of the label, and is the
command of its level with the text of the label, and a label with the identifier. -/
theorem C66_heading_tex (hc : Classes w.ch.sp w.ch.word) (hl : Lower w.ch.lower) (level : LabelText.Level) (id : Str)
    (l : Label) (hid : (w.m.getLabel w.env w.sep id).2 = some l) (n : Nat) (hn : l.order.bind List.getLast? = some (n + 1))
    (h1 : ∀ c ∈ id, c ∉ "–—'\"".toList) (h2 : ¬ "--".toList <:+: id) (math : Bool) (out : Str)
    (hh : headingTex w level [] id math = .ok out) :
    ∃ s t, TextOf w id [] ".tex" s ∧ Writes w.ch s t ∧
      out = "\\setcounter{".toList ++ level.name ++ "}{".toList ++ Nat.toDigits 10 n ++ "}\n\\".toList ++ level.name ++
        "{".toList ++ t ++ "} \\label{".toList ++ id ++ "}".toList := by
  unfold headingTex at hh
  obtain ⟨t, ht, hh⟩ := bind_ok hh
  unfold labelTex at ht
  obtain ⟨s, hs, ht⟩ := bind_ok ht
  obtain ⟨c, hcn, ht⟩ := bind_ok ht
  refine ⟨s, t, other_ok hs, content_tex hc hl hcn ht, ?_⟩
  have hh := other_ok hh
  have hset : Dict.set ([] : ADict) "id".toList (.str id) = [("id".toList, .str id)] := rfl
  rw [hset] at hh
  simp only [LabelText.headingTex, heading_cmd_id, hid, hn, if_neg (Nat.succ_ne_zero n), Nat.add_sub_cancel, LabelText.setcounter,
    LabelText.label_cmd, C45_hyphens_kept hc id h1 h2, Except.ok.injEq] at hh
  rw [← hh]
  simp

/-! ### References -/

/-- **C66**. A reference names a label by its content, and is a link to the label: an element `a` that leads to the url of
the label and shows the text for references to it. -/
theorem C66_ref_html (hc : Classes w.ch.sp w.ch.word) (hl : Lower w.ch.lower) (d : ADict) (text id method : Str)
    (hn : Names w.ch.sp text id) (h : Html) (hh : refTagHtml w d text method = .ok h) :
    ∃ l, (w.m.getLabel w.env w.sep id).2 = some l ∧ LinkTo w method l h := by
  unfold refTagHtml at hh
  rw [names_id hc hn] at hh
  obtain ⟨i, hi, hh⟩ := bind_ok hh
  cases hi
  cases hf : w.find id with
  | none => rw [hf] at hh; cases hh
  | some l => rw [hf] at hh; exact ⟨l, hf, ref_link hc hl hh⟩

/-- **C66**. A reference to a label that there is not is an error, in html and in LaTeX. -/
theorem C66_unknown (hc : Classes w.ch.sp w.ch.word) (d : ADict) (text id method : Str) (hn : Names w.ch.sp text id)
    (hf : (w.m.getLabel w.env w.sep id).2 = none) :
    (∀ h, refTagHtml w d text method ≠ .ok h) ∧ ∀ out, refTagTex w text ≠ .ok out := by
  have hf : w.find id = none := hf
  constructor
  · intro h hh
    unfold refTagHtml at hh
    rw [names_id hc hn] at hh
    obtain ⟨i, hi, hh⟩ := bind_ok hh
    cases hi
    rw [hf] at hh; cases hh
  · intro h hh
    unfold refTagTex at hh
    rw [names_id hc hn] at hh
    obtain ⟨i, hi, hh⟩ := bind_ok hh
    cases hi
    rw [hf] at hh; cases hh

/-- **C66**. A reference to a heading of the same document leads to the heading: its link is the anchor `#` with the `id` of the
heading's element. -/
theorem C66_leads_to_heading (hc : Classes w.ch.sp w.ch.word) (hl : Lower w.ch.lower) (d d' : ADict) (text id method : Str)
    (hn : Names w.ch.sp text id) (l : Label) (hf : (w.m.getLabel w.env w.sep id).2 = some l) (hown : w.docId = some l.docId)
    (hcon : l.content = true) (level : LabelText.Level) (e : String) (he : (level, e) ∈ headingElements)
    (a h : Html) (ha : refTagHtml w d text method = .ok a) (hh : headingHtml w level d' l.id = .ok h) :
    ∃ as ak hs hk, a = .elem "a".toList as ak ∧ h = .elem e.toList hs hk ∧
      ∃ i, hs.get? "id".toList = some i ∧ as.get? "href".toList = some ('#' :: i) := by
  obtain ⟨l', hf', kind, s, url, attrs, kids, _, _, hu, rfl, h1, _⟩ := C66_ref_html hc hl d text id method hn a ha
  rw [hf] at hf'
  cases hf'
  obtain ⟨_, hs, _, _, _, rfl, h2, _⟩ := C66_heading_html hc hl level e he d' l.id h hh
  refine ⟨attrs, kids, hs, _, rfl, rfl, l.id, h2, ?_⟩
  rw [h1]
  unfold UrlOf at hu
  rw [hown, hcon] at hu
  unfold Links.refUrl at hu
  simp only [if_true, Except.ok.injEq] at hu
  exact hu.symm

/-- **C66**. A reference to a label of another document leads to the page of that document, with the label as the anchor. -/
theorem C66_other_document (hc : Classes w.ch.sp w.ch.word) (hl : Lower w.ch.lower) (d : ADict) (text id : Str)
    (hn : Names w.ch.sp text id) (l : Label) (hf : (w.m.getLabel w.env w.sep id).2 = some l)
    (doc : Str) (hdoc : w.docId = some doc) (hd : l.docId ≠ doc)
    (hcwd : ∀ c ∈ w.cwd, Paths.IsName c) (hrel : w.ctx.relative ≠ some false)
    (own other : Links.Files) (hown : w.ctx.document = some own) (hother : w.docs.get? l.docId = some other)
    (t : Str) (htd : t.head? ≠ some '.') (target : Str) (htarget : target = t ∨ target = '.' :: t)
    (page file : Paths.TargetPath) (hp : Paths.GoodPy (.target page)) (hfile : Paths.GoodPy (.target file))
    (hname : page.sub.parts ≠ []) (ht : file.target = ⟨false, [t]⟩) (hpage : own ('.' :: t) = .ok (some page))
    (hof : other ('.' :: t) = .ok (some file)) (a : Html) (ha : refTagHtml w d text target = .ok a) :
    ∃ link as ak, Links.Leads w.cwd page link file ∧ a = .elem "a".toList as ak ∧
      as.get? "href".toList = some (link ++ if l.content then '#' :: l.id else []) := by
  obtain ⟨l', hf', kind, s, url, attrs, kids, _, _, hu, rfl, h1, _⟩ := C66_ref_html hc hl d text id target hn a ha
  rw [hf] at hf'
  cases hf'
  obtain ⟨link, h2, h3⟩ := Links.C54_other_document w.cwd hcwd w.m w.env w.sep doc w.ctx hrel w.docs id l hf hd own other hown
    hother t htd target htarget page file hp hfile hname ht hpage hof
  refine ⟨link, attrs, kids, h2, rfl, ?_⟩
  rw [h1]
  unfold UrlOf at hu
  unfold Links.refLink at h3
  rw [hf, ← hdoc] at h3
  simp only at h3
  rw [hu] at h3
  injection h3

theorem oneItem_content {ch : Chars} {s : Str} (h : OneItem ch.word s) {c : Node} (hs : tagContent ch s = .ok c) :
    ∀ l, c ≠ .list l := by
  unfold tagContent at hs
  obtain ⟨items, hi, rfl⟩ := map_ok hs
  have hi := other_ok hi
  intro l hl
  cases h with
  | text s hn =>
    have := mk_noTag (ch := ch) s.length s hn
    rw [hi] at this
    have hf : Parser.finish items = .str s := by injection this
    rw [hf, setVal, toNode] at hl
    cases hl
  | tag name attrs after body hh hcl =>
    have hk : kindOf ch.lower name ≠ none := by
      intro hk
      have hs := Parser.searchOpen_of_head ch.word [] name attrs true after NoTag.nil
        (by simpa [Parser.braceStr] using hh) (by simp)
      simp only [Parser.braceStr, if_true, List.cons_append, List.nil_append] at hs
      have hb := Parser.braceLoop_of_closes _ _ _ hcl
      rw [makeItems] at hi
      simp only [List.append_assoc, List.cons_append] at hs hi
      rw [hs] at hi
      simp only [if_true, hb, hk] at hi
      split at hi <;> cases hi
    have hm := make_tag (ch := ch) ('@' :: name ++ attrs.getD [] ++ '{' :: after).length [] name attrs after body []
      NoTag.nil hh hcl hk
    rw [List.nil_append] at hm
    rw [hm] at hi
    obtain ⟨c1, _, hi⟩ := bind_ok hi
    obtain ⟨c2, _, hi⟩ := bind_ok hi
    obtain ⟨more, hmore, rfl⟩ := map_ok hi
    rw [show ('@' :: name ++ attrs.getD [] ++ '{' :: after).length = (name ++ attrs.getD [] ++ '{' :: after).length + 1 by simp,
      make_noTag _ [] NoTag.nil, if_pos rfl] at hmore
    cases hmore
    rw [if_pos rfl, List.nil_append] at hl
    have hf : (∃ c3, Parser.finish [.tag name attrs true c2] = .tag name attrs true c3) ∨
        Parser.finish [.tag name attrs true c2] = .str [] := by
      unfold Parser.finish
      rw [Parser.groupStrings, Parser.groupItems]
      cases Parser.Val.truthy (.tag name attrs true c2)
      · exact .inr rfl
      · exact .inl ⟨Parser.groupStrings c2, by
          simp [Parser.groupStrings, Parser.groupItems, Parser.joinAdj, Parser.simplify]⟩
    rcases hf with ⟨c3, hf⟩ | hf
    · rw [hf, setVal] at hl
      split at hl <;> (rw [toNode] at hl; cases hl)
    · rw [hf, setVal, toNode] at hl
      cases hl

/-- The attribute with the url of a reference. -/
theorem href_attr (hw : Attrs.Spec.Classes w.ch.word w.ch.sp) (hx : ∀ c ∈ ".tex".toList, w.ch.sp c = false) (u : Str) (hu : u ≠ [])
    (hu' : ∀ c ∈ u, w.ch.sp c = false ∧ c ∉ [',', '[', ']', '"', '\'', '=']) (ht : w.ch.posType u = .string) :
    load trackedTargets w.ch.posType w.ch.word w.ch.sp (u ++ ".tex".toList) = [(u ++ ".tex".toList, .pos .string)] := by
  have hs : stripAttr trackedTargets (u ++ ".tex".toList) = u :=
    stripAttr_suffixed trackedTargets trackedTargets_good u "tex".toList (by decide)
  have := C05_html_round_trip_partial w.ch.word w.ch.sp hw trackedTargets w.ch.posType [(u ++ ".tex".toList, .pos .string)]
    (by simp [Dict.keys]) (by
      intro e he
      rw [List.mem_singleton] at he
      subst he
      refine ⟨by simp [hu], ?_, ?_⟩
      · intro c hc
        rw [List.mem_append] at hc
        rcases hc with hc | hc
        · exact hu' c hc
        · refine ⟨hx c hc, ?_⟩
          revert c; decide
      · intro m hm
        rw [without_unique trackedTargets trackedTargets_good _ m hm, hs, ht])
  simpa [Attrs.html, List.intercalate] using this

theorem href_cmd (u : Str) (content : Option Str) :
    cmdOpt "href".toList [(u ++ ".tex".toList, .pos .string)] content =
      .ok ("\\href{".toList ++ u ++ "}".toList ++ match content with | some s => '{' :: s ++ ['}'] | none => []) := by
  have hs : stripAttr trackedTargets (u ++ ".tex".toList) = u :=
    stripAttr_suffixed trackedTargets trackedTargets_good u "tex".toList (by decide)
  have hne : u ++ ".tex".toList ≠ u := by
    intro h
    have := congrArg List.length h
    simp at this
  have hf : Attrs.filter trackedTargets [(u ++ ".tex".toList, .pos .string)] (some [.pos .string]) (some texTarget)
      (sortByAttrs := true) = [(u, .pos .string)] := by
    have hfi : findItem trackedTargets [(u ++ ".tex".toList, .pos .string)] (.pos .string) (some texTarget) =
        some (u ++ ".tex".toList, .pos .string) := by
      have he : endsWith (u ++ ".tex".toList) texTarget = true := by
        rw [endsWith, List.isSuffixOf_iff_suffix]
        exact ⟨u ++ ['.'], by simp [texTarget]⟩
      unfold findItem
      simp only
      rw [List.filter_cons_of_pos (by rfl), List.filter_nil]
      split
      · rename_i kv tail h
        have hm : kv ∈ [(u ++ ".tex".toList, AVal.pos .string)] := by
          split at h
          · exact (List.mem_filter.1 (h ▸ List.mem_cons_self ..)).1
          · exact (List.mem_filter.1 (h ▸ List.mem_cons_self ..)).1
        rw [List.mem_singleton.1 hm]
      · rfl
    unfold Attrs.filter
    simp only
    have h1 : Lists.uniq id [Query.pos PType.string] = [Query.pos PType.string] := by decide
    rw [Option.getD_some, h1]
    simp only [if_true]
    have h2 : (some texTarget).map Attrs.stripDots = some texTarget := by decide
    rw [h2]
    have h3 : removeAttrs trackedTargets [Query.pos PType.string] (some texTarget) = [] := rfl
    rw [h3, List.filter_cons_of_pos (by simp), List.filter_nil, List.filterMap_cons, hfi, List.filterMap_nil]
    have h4 : isTargetSpecific trackedTargets (u ++ ".tex".toList) = true := by
      unfold isTargetSpecific
      rw [hs]
      simpa using hne
    have h5 : (Dict.update [] [(u ++ ".tex".toList, AVal.pos PType.string)] : ADict) = [(u ++ ".tex".toList, .pos .string)] := rfl
    rw [h5]
    unfold Attrs.strip
    simp only [Dict.keys, List.map_cons, List.map_nil]
    rw [List.filter_cons_of_pos h4, List.filter_nil, List.map_cons, List.map_nil, hs, List.filter_cons_of_pos (by simpa using hne),
      List.filter_nil, List.foldl_cons, List.foldl_nil, hs]
    rfl
  have hr : requiredStr trackedTargets (posTable texCmdArguments) "href".toList [(u ++ ".tex".toList, .pos .string)] =
      .ok ('{' :: u ++ ['}']) := by
    have hg : (posTable texCmdArguments).get? "href".toList = some [.pos .string] := by decide +kernel
    unfold requiredStr
    rw [hg]
    simp only [hf]
    simp [texArguments]
  unfold cmdOpt texCmd
  rw [if_neg (by decide +kernel), hr]
  simp only
  have ho : optionalStr trackedTargets (nameTable texCmdOptionals) "href".toList [(u ++ ".tex".toList, .pos .string)] false = [] := by
    have hg : (nameTable texCmdOptionals).get? "href".toList = none := by decide +kernel
    unfold optionalStr
    rw [hg]
  rw [ho]
  cases content <;> simp [Except.mapError]

/-- **C66**. In LaTeX a reference is a command with the url of the pdf and the text for references to the label, if the url
can be read as an attribute and the text is one text or one tag. -/
theorem C66_ref_tex_partial (hc : Classes w.ch.sp w.ch.word) (hl : Lower w.ch.lower) (hw : Attrs.Spec.Classes w.ch.word w.ch.sp)
    (hx : ∀ c ∈ ".tex".toList, w.ch.sp c = false) (text id : Str) (hn : Names w.ch.sp text id) (l : Label)
    (hf : (w.m.getLabel w.env w.sep id).2 = some l) (kind : List Str) (hk : l.kind = some kind) (s u : Str)
    (hs : TextOf w l.id ("ref".toList :: kind) ".tex" s) (h1 : OneItem w.ch.word s) (hu : UrlOf w l ".pdf".toList (some u))
    (hu' : u ≠ [] ∧ ∀ c ∈ u, w.ch.sp c = false ∧ c ∉ [',', '[', ']', '"', '\'', '=']) (ht : w.ch.posType u = .string)
    (out : Str) (hh : refTagTex w text = .ok out) :
    ∃ t, Writes w.ch s t ∧ out = "\\href{".toList ++ u ++ "}{".toList ++ t ++ "}".toList := by
  unfold refTagTex at hh
  rw [names_id hc hn] at hh
  have hh : (match w.find id with | none => Except.error RErr.other | some l => refTex w l) = .ok out := hh
  have hf : w.find id = some l := hf
  rw [hf] at hh
  simp only at hh
  unfold refTex at hh
  rw [hk] at hh
  simp only at hh
  obtain ⟨s', hs', hh⟩ := bind_ok hh
  have : s' = s := by
    have := other_ok hs'
    unfold TextOf at hs
    rw [hs] at this
    injection this with this
    exact this.symm
  subst this
  obtain ⟨c, hcn, hh⟩ := bind_ok hh
  obtain ⟨content, hct, hh⟩ := bind_ok hh
  obtain ⟨url, hurl, hh⟩ := bind_ok hh
  have : url = some u := by
    have := other_ok hurl
    unfold UrlOf at hu
    rw [hu] at this
    injection this with this
    exact this.symm
  subst this
  have hcs : refContentTex w.ch.sp c = (texFmt w.ch.sp false c).map some := by
    have := oneItem_content h1 hcn
    cases c with
    | list l => exact absurd rfl (this l)
    | _ => rfl
  rw [hcs] at hct
  obtain ⟨t, htt, rfl⟩ := map_ok hct
  refine ⟨t, content_tex hc hl hcn htt, ?_⟩
  obtain ⟨hune, huc⟩ := hu'
  have hh2 : cmdOpt "href".toList (load trackedTargets w.ch.posType w.ch.word w.ch.sp (u ++ ".tex".toList)) (some t) = .ok out := by
    cases u with
    | nil => exact absurd rfl hune
    | cons c u => exact hh
  rw [href_attr hw hx u hune huc ht, href_cmd] at hh2
  injection hh2 with hh2
  rw [← hh2]
  simp

/-! ### Tables of contents -/

theorem byId_get (labels : List Label) (hid : (labels.map (·.id)).Nodup) (l : Label) (hl : l ∈ labels) :
    Dict.get? (Dict.update [] (labels.map fun l => (l.id, l))) l.id = some l := by
  have hdict : Dict.update [] (labels.map fun l => (l.id, l)) = labels.map fun l => (l.id, l) := by
    rw [Dict.update_append_new]
    · rfl
    · simpa [List.map_map, Function.comp_def] using hid
  rw [hdict]
  apply Dict.get?_of_mem
  · simpa [Dict.keys, List.map_map, Function.comp_def] using hid
  · exact List.mem_map.2 ⟨l, hl, rfl⟩

theorem toDigits_eq (n : Nat) : Nat.toDigits 10 n = (toString n).toList := by
  simp [toString, Nat.repr]

theorem tocItem_eq (hc : Classes w.ch.sp w.ch.word) {d : ADict} {labels : List Label} {method : Str} {l : Label} {n : Nat}
    (hid : (labels.map (·.id)).Nodup) (hl : l ∈ labels) (hn : Names w.ch.sp l.id l.id) (h : Html) :
    tocItem w d labels method l.id n = .ok h ↔ w.find l.id ≠ none ∧ ∃ a, refHtml w d l method = .ok a ∧
      ReadBack (method = "html".toList) (.elem "li".toList [("class".toList, "toc-level-".toList ++ (toString n).toList)] [a]) h := by
  unfold tocItem
  rw [names_id hc hn]
  show (match w.find l.id with
    | none => Except.error RErr.other
    | some _ => _) = _ ↔ _
  cases hf : w.find l.id with
  | none =>
    simp only [ne_eq, not_true, false_and, iff_false]
    intro h; cases h
  | some l' =>
    simp only [byId_get labels hid l hl]
    constructor
    · intro hh
      refine ⟨by simp, ?_⟩
      obtain ⟨ps, hp, hh⟩ := bind_ok hh
      obtain ⟨a, ha, rfl⟩ := map_ok hp
      refine ⟨a, ha, ?_⟩
      rw [li_class] at hh
      rw [← toDigits_eq]
      exact (reread_back _ _ _).1 hh
    · rintro ⟨_, a, ha, hr⟩
      rw [ha]
      show (element "li".toList [("class".toList, AVal.str ("toc-level-".toList ++ Nat.toDigits 10 n))] [.elem (some a)]).bind
        (reread (decide (method = "html".toList))) = _
      rw [li_class, toDigits_eq]
      exact (reread_back _ _ _).2 hr

theorem tocItems_entries (hc : Classes w.ch.sp w.ch.word) (hlo : Lower w.ch.lower) {d : ADict} {labels : List Label} {method : Str}
    (hid : (labels.map (·.id)).Nodup) (hn : ∀ l ∈ labels, Names w.ch.sp l.id l.id) (ls : List Label) (hls : ∀ l ∈ ls, l ∈ labels)
    (ns : List Nat) (hlen : ns.length = ls.length) (items : List (Nat × Html))
    (hh : tocItems w d labels method ((ls.map (·.id)).zip ns) = .ok items) :
    ∃ hs, items = ns.zip hs ∧ hs.length = ns.length ∧ Entries w method ls ns hs := by
  induction ls generalizing ns items with
  | nil =>
    cases ns with
    | cons n ns => cases hlen
    | nil => cases hh; exact ⟨[], rfl, rfl, .nil⟩
  | cons l ls ih =>
    cases ns with
    | nil => cases hlen
    | cons n ns =>
      rw [List.map_cons, List.zip_cons_cons, tocItems] at hh
      obtain ⟨h, h1, hh⟩ := bind_ok hh
      obtain ⟨is, h2, rfl⟩ := map_ok hh
      obtain ⟨hs, rfl, h3, h4⟩ := ih (fun l h => hls l (List.mem_cons_of_mem _ h)) ns (by simpa using hlen) is h2
      have hm := hls l (List.mem_cons_self ..)
      obtain ⟨_, a, ha, hr⟩ := (tocItem_eq hc hid hm (hn l hm) h).1 h1
      exact ⟨h :: hs, rfl, by simp [h3], .cons _ _ _ _ _ _ _ (ref_link hc hlo ha) hr h4⟩

theorem tocItems_exists (hc : Classes w.ch.sp w.ch.word) {d : ADict} {labels : List Label} {method : Str}
    (hid : (labels.map (·.id)).Nodup) (hn : ∀ l ∈ labels, Names w.ch.sp l.id l.id) (ls : List Label) (hls : ∀ l ∈ ls, l ∈ labels)
    (ns : List Nat) (hlen : ns.length = ls.length) :
    (∃ items, tocItems w d labels method ((ls.map (·.id)).zip ns) = .ok items) ↔
      ∀ l ∈ ls, w.find l.id ≠ none ∧ ∃ a a', refHtml w d l method = .ok a ∧ ReadBack (method = "html".toList) a a' := by
  induction ls generalizing ns with
  | nil =>
    cases ns with
    | cons n ns => cases hlen
    | nil => simp [tocItems]
  | cons l ls ih =>
    cases ns with
    | nil => cases hlen
    | cons n ns =>
      have hm := hls l (List.mem_cons_self ..)
      have ih := ih (fun l h => hls l (List.mem_cons_of_mem _ h)) ns (by simpa using hlen)
      rw [List.map_cons, List.zip_cons_cons, tocItems, List.forall_mem_cons, ← ih]
      constructor
      · rintro ⟨items, hh⟩
        obtain ⟨h, h1, hh⟩ := bind_ok hh
        obtain ⟨is, h2, rfl⟩ := map_ok hh
        obtain ⟨hf, a, ha, hr⟩ := (tocItem_eq hc hid hm (hn l hm) h).1 h1
        refine ⟨⟨hf, a, ?_⟩, is, h2⟩
        cases hr with
        | elem _ _ _ kids' _ hk =>
          cases hk with
          | cons _ a' _ _ hk _ => exact ⟨a', ha, hk⟩
      · rintro ⟨⟨hf, a, a', ha, hr⟩, is, h2⟩
        have h1 := (tocItem_eq (n := n) hc hid hm (hn l hm) _).2 ⟨hf, a, ha,
          .elem _ _ _ [a'] (by intro _ v hv; revert v; decide) (.cons _ _ _ _ hr .nil)⟩
        rw [h1, h2]
        exact ⟨_, rfl⟩

theorem levels_tags (labels : List Label) (ns : List Nat) (hl : Navigation.Levels 1 labels ns) :
    ns.length = labels.length ∧ Navigation.referenceTags labels = some ((labels.map (·.id)).zip ns) := by
  have hlen : ns.length = labels.length := by
    have : ∀ n ls ms, Navigation.Levels n ls ms → ms.length = ls.length := by
      intro n ls ms h
      induction h with
      | nil => rfl
      | heading _ _ _ _ _ _ _ _ _ _ ih => simp [ih]
      | same _ _ _ _ _ _ _ _ _ ih => simp [ih]
    exact this _ _ _ hl
  refine ⟨hlen, ?_⟩
  rw [Navigation.C41_levels, List.map_fst_zip (by simp [hlen]), List.map_snd_zip (by simp [hlen])]
  exact ⟨rfl, hl⟩

theorem tags_levels (labels : List Label) (es : List (Str × Nat)) (h : Navigation.referenceTags labels = some es) :
    ∃ ns, Navigation.Levels 1 labels ns ∧ ns.length = labels.length ∧ es = (labels.map (·.id)).zip ns := by
  obtain ⟨h1, h2⟩ := (Navigation.C41_levels labels es).1 h
  obtain ⟨h3, h4⟩ := levels_tags labels _ h2
  rw [h] at h4
  exact ⟨es.map Prod.snd, h2, h3, Option.some.inj h4⟩

/-- **C66**. A table of contents of labels with different identifiers is an ordered list with an entry for each label, in
order: a list item for its level with a link to the label, as an XML reader makes it of its text. If no level is skipped, an
entry is as many lists deep as its level is above the first one. -/
theorem C66_toc_html_partial (hc : Classes w.ch.sp w.ch.word) (hl : Lower w.ch.lower) (d : ADict) (labels : List Label) (method : Str)
    (hid : (labels.map (·.id)).Nodup) (hn : ∀ l ∈ labels, Names w.ch.sp l.id l.id) (h : Html)
    (hh : tocHtml w d labels method = .ok h) :
    ∃ ns hs tree, Navigation.Levels 1 labels ns ∧ Entries w method labels ns hs ∧
      h = .elem "ol".toList [("class".toList, "toc".toList)] (nesteds tree) ∧
      (ListTag.Node.items 0 tree).map (·.2) = hs ∧
      ∀ k, ListTag.WellNested k (ns.zip hs) → ListTag.Node.items k tree = ns.zip hs := by
  unfold tocHtml at hh
  cases hr : Navigation.referenceTags labels with
  | none => rw [hr] at hh; cases hh
  | some es =>
    rw [hr] at hh
    simp only at hh
    obtain ⟨ns, h1, h2, rfl⟩ := tags_levels labels es hr
    obtain ⟨items, hi, hh⟩ := bind_ok hh
    obtain ⟨hs, rfl, h3, h4⟩ := tocItems_entries hc hl hid hn labels (fun _ h => h) ns h2 items hi
    rw [listElems_nested] at hh
    have hh : element "ol".toList [("class".toList, .str "toc".toList)]
      ((nesteds (ListTag.renderList (ns.zip hs))).map fun h => Part.elem (some h)) = .ok h := hh
    rw [ol_class] at hh
    injection hh with hh
    refine ⟨ns, hs, ListTag.renderList (ns.zip hs), h1, h4, hh.symm, ?_, ?_⟩
    · rw [ListTag.C27_html_order, List.map_snd_zip (by omega)]
    · intro k hk
      exact ListTag.depth_xhtmlList _ _ _ k (Nat.le_refl _) (Nat.le_succ _) hk

/-- **C66**. There is such a table exactly if the labels have levels, the manager has the labels, and each link can be made and
can be read by an XML reader. -/
theorem C66_toc_exists (hc : Classes w.ch.sp w.ch.word) (d : ADict) (labels : List Label) (method : Str)
    (hid : (labels.map (·.id)).Nodup) (hn : ∀ l ∈ labels, Names w.ch.sp l.id l.id) :
    (∃ h, tocHtml w d labels method = .ok h) ↔ (∃ ns, Navigation.Levels 1 labels ns) ∧
      ∀ l ∈ labels, (w.m.getLabel w.env w.sep l.id).2 ≠ none ∧
        ∃ a a', refHtml w d l method = .ok a ∧ ReadBack (method = "html".toList) a a' := by
  unfold tocHtml
  constructor
  · rintro ⟨h, hh⟩
    cases hr : Navigation.referenceTags labels with
    | none => rw [hr] at hh; cases hh
    | some es =>
      rw [hr] at hh
      obtain ⟨ns, h1, h2, rfl⟩ := tags_levels labels es hr
      obtain ⟨items, hi, _⟩ := bind_ok hh
      exact ⟨⟨ns, h1⟩, (tocItems_exists hc hid hn labels (fun _ h => h) ns h2).1 ⟨items, hi⟩⟩
  · rintro ⟨⟨ns, h1⟩, h2⟩
    obtain ⟨h3, h4⟩ := levels_tags labels ns h1
    obtain ⟨items, hi⟩ := (tocItems_exists hc hid hn labels (fun _ h => h) ns h3).2 h2
    rw [h4]
    simp only [hi]
    show ∃ h, ((listElems _ _).bind _) = _
    rw [listElems_nested]
    exact ⟨_, ol_class _ _⟩

theorem tocLines_ok (es : List (Str × Nat)) (out : Str) :
    tocLines w es = .ok out ↔ ∃ ts, ts.length = es.length ∧ (∀ x ∈ es.zip ts, refTagTex w x.1.1 = .ok x.2) ∧
      Lines ((es.map (·.2)).zip ts) out := by
  induction es generalizing out with
  | nil =>
    constructor
    · intro h; cases h; exact ⟨[], rfl, by simp, .nil⟩
    · rintro ⟨ts, h1, _, h3⟩
      rw [List.map_nil, List.zip_nil_left] at h3
      cases h3
      rfl
  | cons e es ih =>
    rw [tocLines]
    constructor
    · intro h
      obtain ⟨t, ht, h⟩ := bind_ok h
      obtain ⟨r, hr, rfl⟩ := map_ok h
      obtain ⟨ts, h1, h2, h3⟩ := (ih r).1 hr
      refine ⟨t :: ts, by simp [h1], ?_, ?_⟩
      · rw [List.zip_cons_cons, List.forall_mem_cons]
        exact ⟨ht, h2⟩
      · rw [List.map_cons, List.zip_cons_cons]
        have := Lines.cons e.2 t _ _ h3
        simpa using this
    · rintro ⟨ts, h1, h2, h3⟩
      cases ts with
      | nil => cases h1
      | cons t ts =>
        rw [List.zip_cons_cons, List.forall_mem_cons] at h2
        rw [List.map_cons, List.zip_cons_cons] at h3
        cases h3 with
        | cons _ _ _ x h3 =>
          rw [h2.1, (ih x).2 ⟨ts, by simpa using h1, h2.2, h3⟩]
          show Except.ok _ = _
          simp

theorem env_booktoc (x : Str) : ∃ y, OnLines x y ∧
    Render.env "easylist".toList [("booktoc".toList, .pos .string)] x =
      .ok ("\n\\begin{easylist}[booktoc]".toList ++ y ++ "\\end{easylist}\n".toList) := by
  refine ⟨_, onLines x, ?_⟩
  have h1 : optionalStr trackedTargets texEnvOptionals "easylist".toList [("booktoc".toList, .pos .string)] true = "[booktoc]".toList := by
    decide +kernel
  have h2 : requiredStr trackedTargets (posTable texEnvArguments) "easylist".toList [("booktoc".toList, .pos .string)] = .ok [] := by
    rfl
  unfold Render.env texEnv
  rw [if_neg (by decide), h2, h1]
  simp [Except.mapError]

/-- **C66**. In LaTeX a table of contents is an environment with a line for each label, in order, with as many marks as its
level and the reference to it. There is one exactly if the labels have levels and there is LaTeX for each reference. -/
theorem C66_toc_tex (labels : List Label) :
    (∀ out, tocTex w labels = .ok out → ∃ ns ts x y, Navigation.Levels 1 labels ns ∧ ts.length = labels.length ∧
      (∀ p ∈ labels.zip ts, refTagTex w p.1.id = .ok p.2) ∧ Lines (ns.zip ts) x ∧
      OnLines ("\\ListProperties(Hide=2)\n".toList ++ x) y ∧
      out = "\n\\begin{easylist}[booktoc]".toList ++ y ++ "\\end{easylist}\n".toList) ∧
    ((∃ out, tocTex w labels = .ok out) ↔ (∃ ns, Navigation.Levels 1 labels ns) ∧
      ∀ l ∈ labels, ∃ t, refTagTex w l.id = .ok t) := by
  have hzip : ∀ (ls : List Label) (ns : List Nat) (ts : List Str), ns.length = ls.length →
      (((∀ x ∈ ((ls.map (·.id)).zip ns).zip ts, refTagTex w x.1.1 = .ok x.2) ↔ ∀ p ∈ ls.zip ts, refTagTex w p.1.id = .ok p.2)) := by
    intro ls
    induction ls with
    | nil => intro ns ts _; simp
    | cons l ls ih =>
      intro ns ts hlen
      cases ns with
      | nil => cases hlen
      | cons n ns =>
        cases ts with
        | nil => simp
        | cons t ts =>
          rw [List.map_cons, List.zip_cons_cons, List.zip_cons_cons, List.zip_cons_cons, List.forall_mem_cons, List.forall_mem_cons,
            ih ns ts (by simpa using hlen)]
  refine ⟨?_, ?_⟩
  · intro out hh
    unfold tocTex at hh
    cases hr : Navigation.referenceTags labels with
    | none => rw [hr] at hh; cases hh
    | some es =>
      rw [hr] at hh
      obtain ⟨ns, h1, h2, rfl⟩ := tags_levels labels es hr
      obtain ⟨x, hx, hh⟩ := bind_ok hh
      obtain ⟨ts, h3, h4, h5⟩ := (tocLines_ok _ x).1 hx
      obtain ⟨y, h6, h7⟩ := env_booktoc ("\\ListProperties(Hide=2)\n".toList ++ x)
      rw [h7] at hh
      injection hh with hh
      rw [List.map_snd_zip (by simp [h2])] at h5
      exact ⟨ns, ts, x, y, h1, by simpa [h2] using h3, (hzip _ _ _ h2).1 h4, h5, h6, hh.symm⟩
  · constructor
    · rintro ⟨out, hh⟩
      unfold tocTex at hh
      cases hr : Navigation.referenceTags labels with
      | none => rw [hr] at hh; cases hh
      | some es =>
        rw [hr] at hh
        obtain ⟨ns, h1, h2, rfl⟩ := tags_levels labels es hr
        obtain ⟨x, hx, hh⟩ := bind_ok hh
        obtain ⟨ts, h3, h4, h5⟩ := (tocLines_ok _ x).1 hx
        refine ⟨⟨ns, h1⟩, ?_⟩
        intro l hl
        obtain ⟨i, hi, rfl⟩ := List.getElem_of_mem hl
        have hts : i < ts.length := by rw [h3]; simpa [h2] using hi
        refine ⟨ts[i], ?_⟩
        have := (hzip _ _ _ h2).1 h4 (labels[i], ts[i]) (by
          rw [List.mem_iff_getElem]
          exact ⟨i, by rw [List.length_zip]; exact Nat.lt_min.2 ⟨hi, hts⟩, by simp⟩)
        exact this
    · rintro ⟨⟨ns, h1⟩, h2⟩
      obtain ⟨h3, h4⟩ := levels_tags labels ns h1
      have : ∃ ts, ts.length = labels.length ∧ ∀ p ∈ labels.zip ts, refTagTex w p.1.id = .ok p.2 := by
        clear h1 h3 h4
        induction labels with
        | nil => exact ⟨[], rfl, by simp⟩
        | cons l ls ih =>
          obtain ⟨t, ht⟩ := h2 l (List.mem_cons_self ..)
          obtain ⟨ts, a, b⟩ := ih (fun l h => h2 l (List.mem_cons_of_mem _ h))
          exact ⟨t :: ts, by simp [a], by rw [List.zip_cons_cons, List.forall_mem_cons]; exact ⟨ht, b⟩⟩
      obtain ⟨ts, a, b⟩ := this
      have hlines : ∀ l : List (Nat × Str), ∃ x, Lines l x := by
        intro l
        induction l with
        | nil => exact ⟨[], .nil⟩
        | cons p l ih => obtain ⟨x, hx⟩ := ih; exact ⟨_, .cons p.1 p.2 _ _ hx⟩
      obtain ⟨x, hx⟩ := hlines (ns.zip ts)
      have hok := (tocLines_ok (w := w) ((labels.map (·.id)).zip ns) x).2 ⟨ts, by simp [a, h3], (hzip _ _ _ h3).2 b, by
        rw [List.map_snd_zip (by simp [h3])]; exact hx⟩
      obtain ⟨y, _, h7⟩ := env_booktoc ("\\ListProperties(Hide=2)\n".toList ++ x)
      unfold tocTex
      rw [h4]
      simp only [hok]
      exact ⟨_, h7⟩

/-! ### The next and the previous document -/

/-- **C66**. The links to the next and the previous document are links to their labels, and nothing if there is no such
document. -/
theorem C66_around (hc : Classes w.ch.sp w.ch.word) (hl : Lower w.ch.lower) (d : ADict) (method : Str) :
    aroundHtml w d none method = .ok (.text []) ∧
    ∀ l p, aroundHtml w d (some l) method = .ok p → ∃ h, p = .elem (some h) ∧ LinkTo w method l h := by
  refine ⟨rfl, ?_⟩
  intro l p hp
  obtain ⟨h, hh, rfl⟩ := map_ok hp
  exact ⟨h, rfl, ref_link hc hl hh⟩

/-- **C66** is false of these links in LaTeX: in a document with a next document there is no LaTeX. -/
theorem C66_around_tex (d : ADict) (l : Label) (out : Str) : aroundTex w d (some l) ≠ .ok out := by
  intro h
  obtain ⟨_, _, h⟩ := bind_ok h
  cases h

/-! ### Examples and findings -/

/-- The labels of a document with a part, two chapters, a section and a figure, and of another document. -/
def exampleManager : Manager := Manager.init.run Labels.sep
  [.add "p".toList (some ["heading".toList, "part".toList]) "a".toList true "Basics".toList,
   .add "c".toList (some ["heading".toList, "chapter".toList]) "a".toList true "@i{Waves} -- and light".toList,
   .add "s".toList (some ["heading".toList, "section".toList]) "a".toList true "Red and blue".toList,
   .add "f".toList (some ["caption".toList, "figure".toList]) "a".toList true "A lens".toList,
   .add "x--y".toList (some ["heading".toList, "chapter".toList]) "a".toList true "Dashes".toList,
   .add "g".toList (some ["heading".toList, "section".toList]) "a".toList true "The @symbol{alpha} ray".toList,
   .add "o".toList (some ["heading".toList, "section".toList]) "b".toList true "Elsewhere".toList]

def pageIn (ext : String) (name : String) : Paths.TargetPath :=
  ⟨⟨true, ["p".toList]⟩, ⟨false, [ext.toList]⟩, ⟨false, [name.toList ++ '.' :: ext.toList]⟩⟩

def exampleFiles (name : String) : Links.Files := fun x =>
  if x = ".html".toList then .ok (some (pageIn "html" name)) else
  if x = ".pdf".toList then .ok (some (pageIn "pdf" name)) else .error .targetNotFound

/-- The document `a`; the other document has the given name. -/
def exampleDoc (name : String) : Doc where
  ch := ascii
  more _ _ := none
  repr l := l.id
  fuel := 2
  m := exampleManager
  env := ⟨["a".toList, "b".toList], Labels.defaultResets⟩
  sep := Labels.sep
  fmts := some LabelText.labelFmts
  cwd := []
  docId := some "a".toList
  ctx := ⟨some true, some (exampleFiles "a"), none⟩
  docs := [("a".toList, exampleFiles "a"), ("b".toList, exampleFiles name)]

mutual
/-- An element as text (for examples). -/
def written : Html → Str
  | .text s => s
  | .entity e => '&' :: e ++ [';']
  | .elem e a kids => '<' :: e ++ (a.flatMap fun x => ' ' :: x.1 ++ '=' :: x.2) ++ '>' :: writtens kids ++ '<' :: '/' :: e ++ ['>']
def writtens : List Html → Str
  | [] => []
  | h :: l => written h ++ writtens l
end

def asText (x : Except RErr Html) : Option String := x.toOption.map fun h => String.ofList (written h)

def labelsOf (w : Doc) (ids : List String) : List Label := ids.filterMap fun i => w.find i.toList

set_option maxRecDepth 20000 in
theorem C66_example_headings :
    asText (headingHtml (exampleDoc "b") .chapter [("class".toList, .str "wide".toList)] "c".toList) =
      some "<h2 id=c class=wide><span class=label>Chapter 1. <i>Waves</i>–and light</span></h2>" ∧
    (headingTex (exampleDoc "b") .chapter [] "c".toList false).toOption.map String.ofList =
      some "\\setcounter{chapter}{0}\n\\chapter{Chapter 1. \\textit{Waves}–and light} \\label{c}" := by decide +kernel

set_option maxRecDepth 20000 in
theorem C66_example_refs :
    asText (refTagHtml (exampleDoc "b") [] " c ".toList "html".toList) =
      some "<a href=#c class=ref>Chapter 1. <i>Waves</i>–and light</a>" ∧
    asText (refTagHtml (exampleDoc "b") [] "o".toList "html".toList) = some "<a href=b.html#o class=ref>Elsewhere</a>" ∧
    asText (refTagHtml (exampleDoc "b") [] "f".toList "html".toList) = some "<a href=#f class=ref><strong>Fig. 1</strong></a>" ∧
    (refTagTex (exampleDoc "b") "o".toList).toOption.map String.ofList = some "\\href{b.pdf#o}{Elsewhere}" ∧
    (refTagTex (exampleDoc "b") "f".toList).toOption.map String.ofList = some "\\href{#f}{\\textbf{Fig. 1}}" := by decide +kernel

set_option maxRecDepth 20000 in
theorem C66_example_toc :
    asText (tocHtml (exampleDoc "b") [] (labelsOf (exampleDoc "b") ["p", "c", "s", "o"]) "html".toList) =
      some ("<ol class=toc><li class=toc-level-1><a href=#p class=ref>Part 1. Basics</a></li>" ++
        "<ol><li class=toc-level-2><a href=#c class=ref>Chapter 1. <i>Waves</i>–and light</a></li>" ++
        "<ol><li class=toc-level-3><a href=#s class=ref>Red and blue</a></li>" ++
        "<li class=toc-level-3><a href=b.html#o class=ref>Elsewhere</a></li></ol></ol></ol>") ∧
    (tocTex (exampleDoc "b") (labelsOf (exampleDoc "b") ["p", "s"])).toOption.map String.ofList =
      some ("\n\\begin{easylist}[booktoc]\n\\ListProperties(Hide=2)\n§ \\href{#p}{Part 1. Basics}\n" ++
        "§§§ \\href{#s}{Red and blue}\n\\end{easylist}\n") := by decide +kernel

set_option maxRecDepth 20000 in
/-- **C66** is false of labels with two hyphens: there is the label, but a reference to it is an error, and so is a table of
contents with it. -/
theorem C66_dashes : (exampleDoc "b").find "x--y".toList ≠ none ∧
    asText (headingHtml (exampleDoc "b") .chapter [] "x--y".toList) = some "<h2 id=x--y><span class=label>Chapter 2. Dashes</span></h2>" ∧
    asText (refTagHtml (exampleDoc "b") [] "x--y".toList "html".toList) = none ∧
    asText (tocHtml (exampleDoc "b") [] (labelsOf (exampleDoc "b") ["p", "x--y"]) "html".toList) = none := by decide +kernel

set_option maxRecDepth 20000 in
/-- **C66** is false of a text of several items in LaTeX: the link has no text. -/
theorem C66_tex_lost : (refTagTex (exampleDoc "b") "c".toList).toOption.map String.ofList = some "\\href{#c}" := by decide +kernel

set_option maxRecDepth 20000 in
/-- **C66** is false of a document with a space in its name in LaTeX: the link is not the url. -/
theorem C66_tex_space : asText (refTagHtml (exampleDoc "my b") [] "o".toList "html".toList) =
      some "<a href=my b.html#o class=ref>Elsewhere</a>" ∧
    (refTagTex (exampleDoc "my b") "o".toList).toOption.map String.ofList = some "\\href{b.pdf#o}{Elsewhere}" := by decide +kernel

set_option maxRecDepth 20000 in
/-- **C66** is false of a heading with a symbol: it can be shown and referred to, but a table of contents with it is an error. -/
theorem C66_symbol : asText (refTagHtml (exampleDoc "b") [] "g".toList "html".toList) =
      some "<a href=#g class=ref>The &alpha; ray</a>" ∧
    asText (tocHtml (exampleDoc "b") [] (labelsOf (exampleDoc "b") ["p", "g"]) "html".toList) = none := by decide +kernel

/-- The hypotheses of the theorems hold of the example. -/
example : Classes (exampleDoc "b").ch.sp (exampleDoc "b").ch.word ∧ Lower (exampleDoc "b").ch.lower ∧
    Names (exampleDoc "b").ch.sp " c ".toList "c".toList := by
  refine ⟨Page.ascii_classes, ascii_lower, ?_, by decide, ?_, [' '], [' '], rfl, by decide, by decide, by decide⟩
  · exact (Parser.searchOpen_none ascii.word _).1 (by decide)
  · intro h
    have := h.length_le
    have h2 : ("--".toList : Str) = ['-', '-'] := rfl
    obtain ⟨a, b, h⟩ := h
    have : '-' ∈ " c ".toList := by rw [← h]; simp
    exact absurd this (by decide)

set_option maxRecDepth 20000 in
example : Attrs.Spec.Classes (exampleDoc "b").ch.word (exampleDoc "b").ch.sp ∧ OneItem (exampleDoc "b").ch.word "Elsewhere".toList ∧
    ∃ l, ((exampleDoc "b").m.getLabel (exampleDoc "b").env (exampleDoc "b").sep "o".toList).2 = some l ∧
      l.kind = some ["heading".toList, "section".toList] ∧
      TextOf (exampleDoc "b") l.id ["ref".toList, "heading".toList, "section".toList] ".tex" "Elsewhere".toList ∧
      UrlOf (exampleDoc "b") l ".pdf".toList (some "b.pdf#o".toList) := by
  refine ⟨⟨by decide, ?_, by decide, by decide, by decide, by decide, by decide, by decide, by decide⟩,
    .text _ ((Parser.searchOpen_none ascii.word _).1 (by decide)), ?_⟩
  · intro c h
    simp only [exampleDoc, ascii, asciiSp, Bool.or_eq_true, decide_eq_true_eq] at h
    rcases h with ((rfl | rfl) | rfl) | rfl <;> decide
  · have hok : ∀ {ε α : Type} (x : Except ε α) (a : α), x.toOption = some a → x = .ok a := by
      intro ε α x a h
      cases x with
      | error e => cases h
      | ok b => cases h; rfl
    have h : (((exampleDoc "b").m.getLabel (exampleDoc "b").env (exampleDoc "b").sep "o".toList).2.any fun l =>
        l.kind = some ["heading".toList, "section".toList] &&
        (LabelText.formatString ⟨ascii.word, ascii.sp, (exampleDoc "b").more, (exampleDoc "b").repr, 2⟩ exampleManager
          (exampleDoc "b").env Labels.sep (some LabelText.labelFmts) l.id ["ref".toList, "heading".toList, "section".toList]
            (some ".tex".toList)).toOption = some "Elsewhere".toList &&
        (Links.refUrl [] (some "a".toList) (exampleDoc "b").ctx (exampleDoc "b").docs l ".pdf".toList l.content).toOption =
          some (some "b.pdf#o".toList)) = true := by decide +kernel
    cases hl : ((exampleDoc "b").m.getLabel (exampleDoc "b").env (exampleDoc "b").sep "o".toList).2 with
    | none => rw [hl] at h; cases h
    | some l =>
      rw [hl] at h
      simp only [Option.any_some, Bool.and_eq_true, decide_eq_true_eq] at h
      exact ⟨l, rfl, h.1.1, hok _ _ h.1.2, hok _ _ h.2⟩

end Verif.Refs
