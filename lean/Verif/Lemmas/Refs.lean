import Verif.Spec.Refs
import Verif.Props.Page
import Verif.Props.Links
import Verif.Props.Navigation
import Verif.Props.ListTag
import Verif.Lemmas.Composite
import Verif.Lemmas.Scanner

/-!
# Lemmas: headings, references and tables of contents
-/

namespace Verif.Refs

open Verif Verif.Typography Verif.Attrs Verif.Formats Verif.Render Verif.Render.Spec Verif.Labels Verif.Page Verif.Page.Spec Verif.Refs.Spec
open Verif.Composite (bind_ok map_ok)

/-! ### Marks -/

mutual
theorem marks_prefix (p q : List Str) (h : Html) : marks (p ++ q) h = (marks q h).map fun x => (p ++ x.1, x.2) := by
  match h with
  | .text s => simp [marks]
  | .entity s => simp [marks]
  | .elem e a kids =>
    rw [marks, marks]
    split
    · exact marksAll_prefix p q kids
    · rw [List.append_assoc]; exact marksAll_prefix p (q ++ [e]) kids
theorem marksAll_prefix (p q : List Str) (l : List Html) : marksAll (p ++ q) l = (marksAll q l).map fun x => (p ++ x.1, x.2) := by
  match l with
  | [] => rfl
  | h :: l => rw [marksAll, marksAll, List.map_append, marks_prefix p q h, marksAll_prefix p q l]
end

theorem around_filter (lower : Str → Str) (ns : List Str) :
    around lower (ns.filter fun n => lower n ≠ "p".toList) = around lower ns := by
  unfold around
  induction ns with
  | nil => rfl
  | cons n ns ih =>
    rw [List.filter_cons, List.flatMap_cons]
    by_cases hp : lower n = "p".toList
    · have : elementOf lower n = [] := by unfold elementOf; rw [if_pos (by rw [hp]; simp)]
      rw [this, List.nil_append, if_neg (by simpa using hp), ih]
    · rw [if_pos (by simpa using hp), List.flatMap_cons, ih]

/-! ### The content of a text -/

variable {ch : Chars}

theorem content_reads {Q} (hc : Classes ch.sp ch.word) (hl : Lower ch.lower) (hQ : ∀ n, Q n []) {s ls}
    (h : Reads ch.word ch.sp ch.lower s ls)
    (hq : ∀ l ∈ ls, ∀ n, l.1.getLast? = some n → verbatim ch.lower n = true → Q n l.2) :
    ∃ c, tagContent ch s = .ok (toNode ch c) ∧ Good ch Q c ∧
      ∀ (α : Type) (g : List Str → Str → List α), Additive ch.sp g → ∀ path,
        vm ch.lower g path c = ls.flatMap (leafVal ch g path) := by
  obtain ⟨items, h1, h2, h3, _, _, h6⟩ := reads_make hc hl.p hl.body hQ h hq (s.length + 1) (Nat.le_refl _)
  have hk : kindOf ch.lower "p".toList = some .p := by unfold kindOf; rw [hl.p]; rfl
  have hr : raw ch.lower "p".toList = false := by unfold raw; rw [hk]; rfl
  obtain ⟨c, r1, r2, _, _, r5⟩ := receive_fresh hc hl.p s.length items h2 (by omega) "p".toList hr
  refine ⟨c, ?_, r2, ?_⟩
  · unfold receive at r1
    simp only at r1
    have hp : paragraphed ch.lower "p".toList = false := by unfold paragraphed; rw [hk]; rfl
    rw [proc_raw, hr, hp] at r1
    simp only [Bool.not_false, if_true, Bool.false_eq_true, if_false, Except.ok.injEq] at r1
    unfold tagContent
    rw [h1]
    show Except.ok (toNode ch (setVal (typo ch.sp ch.word) (proc ch.lower) (Parser.finish items))) = _
    rw [r1]
  · intro α g hg path
    rw [r5 α g hg path, h6 α g hg path]

/-- An element with the content of a text shows the text. -/
theorem content_marks (hc : Classes ch.sp ch.word) (hl : Lower ch.lower) {s : Str} {c : Node} (hs : tagContent ch s = .ok c)
    {parts} (hp : htmlFmt ch.sp ch.lower c = .ok parts) {kids} (hk : toKids (Formats.cleanParts parts) = .ok kids)
    (path : List Str) {ls} (hr : Reads ch.word ch.sp ch.lower s ls) :
    (marksAll path kids).filter (fun x => !ch.sp x.2) =
      placedIn ch.lower (fun c => !ch.sp c) path (typeset ch.lower (typo ch.sp ch.word) ls) := by
  obtain ⟨v, h1, h2, h3⟩ := content_reads (Q := fun _ _ => True) hc hl (fun _ => trivial) hr (fun _ _ _ _ _ => trivial)
  rw [hs] at h1
  cases h1
  have hm := shown_marks [] v kids h2 (C53_shown _ _ _ _ _ hp hk)
  rw [show around ch.lower [] = [] from rfl] at hm
  have := marksAll_prefix path [] kids
  rw [List.append_nil] at this
  rw [this, List.filter_map]
  have he : (fun x : List Str × Char => !ch.sp x.2) ∘ (fun x => (path ++ x.1, x.2)) = inked ch.sp := rfl
  rw [he, hm, h3 _ _ gm_additive, placedIn, typeset, List.flatMap_map, List.map_flatMap]
  congr 1
  funext l
  unfold leafVal gm
  rw [List.nil_append, around_filter, List.map_map]
  rfl

/-! ### Elements -/

theorem element_named {name : Str} (hn : name ∈ xhtmlArguments.keys ∨ name ∈ xhtmlOptionals.keys) {d : ADict} {parts} {h : Html}
    (he : element name d parts = .ok h) :
    ∃ attrs kids, h = .elem name attrs kids ∧ toKids (Formats.cleanParts parts) = .ok kids ∧ AttrsOf name d attrs := by
  obtain ⟨e, attrs, kids, rfl, hk, hal, hat⟩ := element_ok _ _ _ _ he
  rcases hal with ⟨_, rfl⟩ | ⟨h, _⟩
  · exact ⟨attrs, kids, rfl, hk, hat⟩
  · exact absurd hn h

theorem other_ok {ε α : Type} {x : Except ε α} {a : α} (h : other x = .ok a) : x = .ok a := by
  cases x with
  | error e => cases h
  | ok b => cases h; rfl

theorem attr_str {name : Str} {d : ADict} {attrs} (h : AttrsOf name d attrs) (k v : Str)
    (hk : k ∈ allowedAttrs xhtmlArguments xhtmlOptionals name) (hv : d.get? k = some (.str v)) : attrs.get? k = some v :=
  (h k v).2 (Or.inl ⟨hk, hv⟩)

theorem a_named : "a".toList ∈ xhtmlArguments.keys ∨ "a".toList ∈ xhtmlOptionals.keys := by decide +kernel
theorem span_named : "span".toList ∈ xhtmlArguments.keys ∨ "span".toList ∈ xhtmlOptionals.keys := by decide +kernel
theorem li_named : "li".toList ∈ xhtmlArguments.keys ∨ "li".toList ∈ xhtmlOptionals.keys := by decide +kernel
theorem ol_named : "ol".toList ∈ xhtmlArguments.keys ∨ "ol".toList ∈ xhtmlOptionals.keys := by decide +kernel
theorem a_href : "href".toList ∈ allowedAttrs xhtmlArguments xhtmlOptionals "a".toList := by decide +kernel
theorem a_class : "class".toList ∈ allowedAttrs xhtmlArguments xhtmlOptionals "a".toList := by decide +kernel

theorem get?_without (d : Dict Str Str) (k k' : Str) :
    Dict.get? (d.filter fun x => x.1 ≠ k) k' = if k' = k then none else d.get? k' := by
  induction d with
  | nil => simp [Dict.get?]
  | cons x d ih =>
    obtain ⟨a, b⟩ := x
    by_cases h : a = k
    · rw [List.filter_cons_of_neg (by simpa using h), ih]
      by_cases h' : k' = k
      · rw [if_pos h', if_pos h']
      · rw [if_neg h', if_neg h']
        simp only [Dict.get?]
        rw [if_neg (fun e => h' (e.symm.trans h))]
    · rw [List.filter_cons_of_pos (by simpa using h)]
      simp only [Dict.get?, ih]
      by_cases h' : a = k'
      · rw [if_pos h', if_neg (h' ▸ h), if_pos h']
      · rw [if_neg h', if_neg h']

/-- The element of a link. -/
theorem link_ok {d : ADict} {url : Option Str} {parts} {h : Html} (hh : linkElement d url parts = .ok h) :
    ∃ attrs kids, h = .elem "a".toList attrs kids ∧ toKids (Formats.cleanParts parts) = .ok kids ∧
      attrs.get? "href".toList = url ∧ attrs.get? "class".toList = some "ref".toList := by
  unfold linkElement at hh
  simp only at hh
  obtain ⟨x, hx, rfl⟩ := map_ok hh
  obtain ⟨attrs, kids, rfl, hk, ha⟩ := element_named a_named hx
  have h1 : attrs.get? "href".toList = some (url.getD []) := attr_str ha _ _ a_href (by
    rw [Dict.get?_set, if_pos rfl])
  have h2 : attrs.get? "class".toList = some "ref".toList := attr_str ha _ _ a_class (by
    rw [Dict.get?_set, if_neg (by decide), Dict.get?_set, if_pos rfl])
  cases url with
  | none =>
    refine ⟨attrs.filter fun x => x.1 ≠ "href".toList, kids, rfl, hk, ?_, ?_⟩
    · rw [get?_without, if_pos rfl]
    · rw [get?_without, if_neg (by decide)]; exact h2
  | some u => exact ⟨attrs, kids, rfl, hk, h1, h2⟩

theorem marks_elem (e : Str) (he : e ≠ "p".toList) (path a kids) : marks path (.elem e a kids) = marksAll (path ++ [e]) kids := by
  rw [marks, if_neg he]

/-- A reference is a link to its label. -/
theorem ref_link {w : Doc} (hc : Classes w.ch.sp w.ch.word) (hl : Lower w.ch.lower) {d : ADict} {l : Label} {method : Str} {h : Html}
    (hh : refHtml w d l method = .ok h) : LinkTo w method l h := by
  unfold refHtml at hh
  cases hk : l.kind with
  | none => rw [hk] at hh; cases hh
  | some kind =>
    rw [hk] at hh
    obtain ⟨s, hs, hh⟩ := bind_ok hh
    obtain ⟨c, hcn, hh⟩ := bind_ok hh
    obtain ⟨parts, hp, hh⟩ := bind_ok hh
    obtain ⟨url, hu, hh⟩ := bind_ok hh
    obtain ⟨attrs, kids, rfl, h1, h2, h3⟩ := link_ok hh
    refine ⟨kind, s, url, attrs, kids, hk, other_ok hs, other_ok hu, rfl, h2, h3, ?_⟩
    intro ls hr
    rw [marks_elem _ (by decide)]
    exact content_marks hc hl hcn hp h1 _ hr

/-! ### Reading back -/

theorem void_iff (e : Str) : voidElements.contains e = true ↔ ∃ v ∈ ["area", "base", "br", "col", "embed", "frame", "hr", "img",
    "input", "link", "meta", "param"], e = String.toList v := by
  simp only [voidElements, List.contains_eq_mem, List.mem_cons, List.not_mem_nil, or_false, decide_eq_true_eq, exists_eq_or_imp,
    exists_eq_left]

mutual
theorem reread_back (html : Bool) (h h' : Html) : reread html h = .ok h' ↔ ReadBack html h h' := by
  match h with
  | .text s =>
    constructor
    · intro hh; cases hh; exact .text s
    · intro hh; cases hh; rfl
  | .entity e =>
    constructor
    · intro hh
      rw [reread] at hh
      cases hx : xmlEntities.get? e with
      | none => rw [hx] at hh; cases hh
      | some s =>
        rw [hx] at hh; cases hh
        have hm := Dict.mem_of_get? _ _ _ hx
        simp only [xmlEntities, List.mem_cons, Prod.mk.injEq, List.not_mem_nil, or_false] at hm
        rcases hm with ⟨rfl, rfl⟩ | ⟨rfl, rfl⟩ | ⟨rfl, rfl⟩ | ⟨rfl, rfl⟩ | ⟨rfl, rfl⟩
        · exact .entity "lt" "<" (by decide)
        · exact .entity "gt" ">" (by decide)
        · exact .entity "amp" "&" (by decide)
        · exact .entity "quot" "\"" (by decide)
        · exact .entity "apos" "'" (by decide)
    · intro hh
      generalize hx : Html.entity e = x at hh
      cases hh with
      | text s => cases hx
      | elem => cases hx
      | entity e' s hm =>
        cases hx
        simp only [List.mem_cons, Prod.mk.injEq, List.not_mem_nil, or_false] at hm
        rcases hm with ⟨rfl, rfl⟩ | ⟨rfl, rfl⟩ | ⟨rfl, rfl⟩ | ⟨rfl, rfl⟩ | ⟨rfl, rfl⟩ <;> rfl
  | .elem e a kids =>
    have hv := void_iff e
    rw [reread]
    constructor
    · intro hh
      by_cases hc : (html && voidElements.contains e) = true
      · rw [if_pos hc] at hh; cases hh
      · rw [if_neg hc] at hh
        obtain ⟨k, hk, rfl⟩ := map_ok hh
        refine .elem _ _ _ _ ?_ ((rereads_back html kids k).1 hk)
        intro ht v hm he
        exact hc (by rw [ht, Bool.true_and]; exact hv.2 ⟨v, hm, he⟩)
    · intro hh
      cases hh with
      | elem _ _ _ kids' hn hk =>
        rw [if_neg, (rereads_back html kids kids').2 hk]
        · rfl
        · intro hc
          rw [Bool.and_eq_true] at hc
          obtain ⟨v, hm, he⟩ := hv.1 hc.2
          exact hn hc.1 v hm he
theorem rereads_back (html : Bool) (l l' : List Html) : rereads html l = .ok l' ↔ ReadBacks html l l' := by
  match l with
  | [] =>
    constructor
    · intro hh; cases hh; exact .nil
    · intro hh; cases hh; rfl
  | h :: l =>
    rw [rereads]
    constructor
    · intro hh
      obtain ⟨h', h1, hh⟩ := bind_ok hh
      obtain ⟨k, h2, rfl⟩ := map_ok hh
      exact .cons _ _ _ _ ((reread_back html h h').1 h1) ((rereads_back html l k).1 h2)
    · intro hh
      cases hh with
      | cons _ h' _ k h1 h2 =>
        rw [(reread_back html h h').2 h1, (rereads_back html l k).2 h2]
        rfl
end

/-! ### Lists -/

theorem ol_plain {parts kids} (hk : toKids (Formats.cleanParts parts) = .ok kids) :
    element "ol".toList [] parts = .ok (.elem "ol".toList [] kids) := by
  obtain ⟨h, hh⟩ := element_exists "ol".toList [] parts kids hk (by decide +kernel) (by intro a _ t; exact fun h => absurd h (by simp [Dict.get?]))
  obtain ⟨attrs, kids', rfl, hk', ha⟩ := element_named ol_named hh
  rw [hk] at hk'
  cases hk'
  have : attrs = [] := by
    match attrs with
    | [] => rfl
    | (k, v) :: r =>
      have := (ha k v).1 (by simp [Dict.get?])
      rcases this with ⟨_, h⟩ | ⟨h, _⟩
      · simp [Dict.get?] at h
      · exact absurd ol_named h
  rw [this] at hh
  exact hh

theorem li_class (c : Str) (a : Html) : element "li".toList [("class".toList, .str c)] [.elem (some a)] =
    .ok (.elem "li".toList [("class".toList, c)] [a]) := by rfl

theorem clean_elems (hs : List Html) : toKids (Formats.cleanParts (hs.map fun h => Part.elem (some h))) = .ok hs := by
  induction hs with
  | nil => rfl
  | cons h hs ih =>
    rw [List.map_cons, Formats.cleanParts, List.filter_cons_of_pos (by rfl), toKids]
    rw [Formats.cleanParts] at ih
    rw [ih]
    rfl

theorem ol_class (c : Str) (hs : List Html) :
    element "ol".toList [("class".toList, .str c)] (hs.map fun h => Part.elem (some h)) =
      .ok (.elem "ol".toList [("class".toList, c)] hs) := by
  show (toKids (Formats.cleanParts (hs.map fun h => Part.elem (some h)))).map (Html.elem "ol".toList [("class".toList, c)]) = _
  rw [clean_elems]
  rfl

mutual
theorem listElem_nested (n : ListTag.Node Html) : listElem "ol".toList n = .ok (nested n) := by
  match n with
  | .li h => rfl
  | .sub l =>
    rw [listElem, listElems_nested l, nested]
    show element "ol".toList [] _ = _
    rw [ol_plain (clean_elems (nesteds l))]
theorem listElems_nested (l : List (ListTag.Node Html)) :
    listElems "ol".toList l = .ok ((nesteds l).map fun h => Part.elem (some h)) := by
  match l with
  | [] => rfl
  | n :: l =>
    rw [listElems, listElem_nested n, listElems_nested l, nesteds]
    rfl
end

/-! ### Names of labels -/

theorem names_id (hc : Classes ch.sp ch.word) {t id : Str} (h : Names ch.sp t id) : refId ch t = .ok id := by
  obtain ⟨h1, h2, h3, a, b, h4, h5, h6, h7⟩ := h
  have := mk_noTag (ch := ch) t.length t h1
  obtain ⟨items, hi, hf⟩ := map_ok this
  have ht : tagContent ch t = .ok (.str t) := by
    unfold tagContent
    rw [hi]
    show Except.ok (toNode ch (setVal (typo ch.sp ch.word) (proc ch.lower) (Parser.finish items))) = _
    rw [← hf, setVal, C45_hyphens_kept hc t h2 h3, toNode]
  unfold refId
  rw [ht]
  simp only
  rw [h4, Scanner.strip_eq ch.sp a id b h5 h6 h7]

end Verif.Refs
