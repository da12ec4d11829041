import Verif.Lemmas.Page
import Verif.Props.Render

/-!
# Lemmas: what is shown of the tree of a document
-/

namespace Verif.Page

open Verif Verif.Typography Verif.Parser Verif.Parser.Spec Verif.Page.Spec Verif.Render Verif.Render.Spec

variable {ch : Chars} {Q : Str → Str → Prop}

/-! ### Elements -/

/-- The kinds that a name can have. -/
theorem kind_cases (lower : Str → Str) (n : Str) (k : Kind) (h : kindOf lower n = some k) :
    (lower n, k) ∈ kinds ∨ k = .generic ∧ lower n ∉ kinds.map (·.1) := by
  unfold kindOf at h
  cases hk : kinds.get? (lower n) with
  | none =>
    rw [hk] at h
    simp only at h
    split at h
    · cases h
    · cases h
      refine .inr ⟨rfl, ?_⟩
      intro hm
      have : ∀ x ∈ kinds.map (·.1), kinds.get? x ≠ none := by decide
      exact this _ hm hk
  | some k' =>
    rw [hk] at h
    cases h
    exact .inl (get?_mem _ _ _ hk)

/-- The element by the table of the specification. -/
def byTable (x : Str) : Option Str := (Page.Spec.elements.find? fun y => y.1.toList = x).map fun y => y.2.toList

theorem table_ok : ∀ x ∈ kinds, ∀ e ∈ Render.Spec.elements, e.1 = x.2 →
    byTable x.1 = some e.2.toList ∧ x.1 ∉ ["p".toList, "symbol".toList, "smb".toList] ∧ e.2.toList ≠ "p".toList := by
  decide +kernel

theorem table_none (x : Str) (h : x ∉ kinds.map (·.1)) : byTable x = none := by
  unfold byTable
  rw [Option.map_eq_none_iff, List.find?_eq_none]
  intro y hy he
  rw [decide_eq_true_eq] at he
  have : ∀ y ∈ Page.Spec.elements, y.1.toList ∈ kinds.map (·.1) := by decide
  exact h (he ▸ this y hy)

theorem element_eq (lower : Str → Str) (n name e : Str) (k : Kind) (hk : kindOf lower n = some k) (hs : k ≠ .symbol)
    (h1 : ElementOf lower k n name) (h2 : Allowed name e) : elementOf lower n = if e = "p".toList then [] else [e] := by
  have hspan : "span".toList ≠ "p".toList := by decide
  have hif : (if name ∈ Formats.xhtmlArguments.map (·.1) ∨ name ∈ Formats.xhtmlOptionals.map (·.1) then name else "span".toList) = e := by
    rcases h2 with ⟨h, rfl⟩ | ⟨h, rfl⟩
    · exact if_pos h
    · exact if_neg h
  have hne : name ≠ "p".toList → e ≠ "p".toList := by
    intro h
    rcases h2 with ⟨_, rfl⟩ | ⟨_, rfl⟩
    · exact h
    · exact hspan
  have fin : lower n ∉ ["p".toList, "symbol".toList, "smb".toList] → (byTable (lower n)).getD (lower n) = name → name ≠ "p".toList →
      elementOf lower n = if e = "p".toList then [] else [e] := by
    intro a b c
    unfold elementOf
    rw [if_neg a, if_neg (hne c)]
    unfold byTable at b
    simp only [b, hif]
  rcases kind_cases lower n k hk with hm | ⟨rfl, hm⟩
  · rcases h1 with ⟨s, he, rfl⟩ | ⟨hk', rfl⟩
    · obtain ⟨t1, t2, t3⟩ := table_ok _ hm _ he rfl
      exact fin t2 (by rw [t1]; rfl) t3
    · have hp : ∀ x ∈ kinds, x.2 ∈ [Kind.generic, .p] → x.1 = "p".toList := by decide
      have := hp _ hm hk'
      simp only at this
      have he : e = "p".toList := by
        rw [← hif, this]; decide
      unfold elementOf
      rw [this, if_pos (by decide), he, if_pos rfl]
  · rcases h1 with ⟨s, he, rfl⟩ | ⟨_, rfl⟩
    · have : ∀ x ∈ Render.Spec.elements, x.1 ≠ .generic := by decide
      exact absurd rfl (this _ he)
    · have hp : ∀ x ∈ ["p".toList, "symbol".toList, "smb".toList], x ∈ kinds.map (·.1) := by decide
      refine fin (fun h => hm (hp _ h)) (by rw [table_none _ hm]; rfl) ?_
      intro h; rw [h] at hm; exact hm (by decide)

theorem element_symbol (lower : Str → Str) (n : Str) (hk : kindOf lower n = some .symbol) : elementOf lower n = [] := by
  unfold elementOf
  have : ∀ x ∈ ["symbol".toList, "smb".toList], x ∈ ["p".toList, "symbol".toList, "smb".toList] := by decide
  rw [if_pos (this _ (symbol_kind lower n hk))]

theorem kind_plain (lower : Str → Str) (n : Str) (k : Kind) (hk : kindOf lower n = some k) :
    k ≠ .supsub ∧ k ∉ Render.Spec.headings := by
  have : ∀ x ∈ kinds, x.2 ≠ .supsub ∧ x.2 ∉ Render.Spec.headings := by decide
  rcases kind_cases lower n k hk with hm | ⟨rfl, _⟩
  · exact this _ hm
  · decide

/-! ### Marks -/

theorem marksAll_append (path : List Str) (a b : List Html) : marksAll path (a ++ b) = marksAll path a ++ marksAll path b := by
  induction a with
  | nil => rfl
  | cons h a ih => rw [List.cons_append, marksAll, marksAll, ih, List.append_assoc]

/-- The characters that are not spaces. -/
def inked (sp : Char → Bool) (x : List Str × Char) : Bool := !sp x.2

/-- The characters of a text with the elements of the tags around it. -/
def gm (ch : Chars) (names : List Str) (s : Str) : List (List Str × Char) :=
  (s.filter (!ch.sp ·)).map fun c => (around ch.lower names, c)

theorem gm_additive : Additive ch.sp (gm ch) := by
  refine ⟨fun p a b => by simp [gm], ?_⟩
  intro p s hs
  simp only [gm, List.map_eq_nil_iff, List.filter_eq_nil_iff]
  intro c hc
  simp [hs c hc]

theorem filter_marks (path : List Str) (s : Str) :
    (s.map fun c => (path, c)).filter (inked ch.sp) = (s.filter (!ch.sp ·)).map fun c => (path, c) := by
  induction s with
  | nil => rfl
  | cons c s ih =>
    rw [List.map_cons, List.filter_cons, List.filter_cons, ih]
    cases h : ch.sp c <;> simp [inked, h]

theorem filter_trimmed {sp : Char → Bool} {s t : Str} (h : Trimmed sp s t) : t.filter (!sp ·) = s.filter (!sp ·) := by
  obtain ⟨a, b, rfl, ha, hb, _⟩ := h
  have hz : ∀ l : Str, (∀ c ∈ l, sp c = true) → l.filter (!sp ·) = [] := by
    intro l hl
    rw [List.filter_eq_nil_iff]
    intro c hc
    simp [hl c hc]
  rw [List.filter_append, List.filter_append, hz a ha, hz b hb]
  simp

theorem around_snoc (lower : Str → Str) (names : List Str) (n : Str) :
    around lower (names ++ [n]) = around lower names ++ elementOf lower n := by
  simp [around]

theorem around_name (lower : Str → Str) (names : List Str) (n : Str) :
    around lower (if lower n = "p".toList then names else names ++ [n]) = around lower names ++ elementOf lower n := by
  by_cases h : lower n = "p".toList
  · have : elementOf lower n = [] := by unfold elementOf; rw [if_pos (by rw [h]; simp)]
    rw [if_pos h, this, List.append_nil]
  · rw [if_neg h, around_snoc]

mutual
theorem shown_marks (names : List Str) (v : Val) (kids : List Html) (hg : Good ch Q v)
    (h : Shown ch.sp ch.lower (toNode ch v) kids) :
    (marksAll (around ch.lower names) kids).filter (inked ch.sp) = vm ch.lower (gm ch) names v := by
  match v, hg with
  | .str s, _ =>
    rw [toNode] at h
    cases h
    unfold textNodes
    by_cases hs : s = []
    · subst hs; rfl
    · rw [if_neg hs, marksAll, marks, marksAll, List.append_nil, filter_marks]; rfl
  | .tag n a b c, hg =>
    rw [toNode] at h
    obtain ⟨k, hk⟩ := Option.ne_none_iff_exists'.1 hg.1.1
    rw [hk, Option.getD_some] at h
    rw [vm]
    by_cases hsym : k = .symbol
    · subst hsym
      obtain ⟨s, rfl⟩ := hg.1.2 hk
      rw [toNode] at h
      cases h with
      | tag _ _ _ _ _ _ _ _ _ _ _ h2 => exact absurd rfl h2
      | symbol _ _ _ s' ht =>
        rw [marksAll, marks, marksAll, List.append_nil, filter_marks, filter_trimmed ht, vm, gm, around_name,
          element_symbol _ _ hk, List.append_nil]
    · have hplain := kind_plain _ _ _ hk
      have key : ∀ kids', Shown ch.sp ch.lower (toNode ch c) kids' → ∀ name e attrs, ElementOf ch.lower k n name → Allowed name e →
          (marksAll (around ch.lower names) [.elem e attrs kids']).filter (inked ch.sp) =
            vm ch.lower (gm ch) (if ch.lower n = "p".toList then names else names ++ [n]) c := by
        intro kids' hsh name e attrs h1 h2
        rw [marksAll, marks, marksAll, List.append_nil]
        have he := element_eq ch.lower n name e k hk hsym h1 h2
        have hpath : (if e = "p".toList then around ch.lower names else around ch.lower names ++ [e]) =
            around ch.lower (if ch.lower n = "p".toList then names else names ++ [n]) := by
          rw [around_name, he]
          by_cases hp : e = "p".toList
          · rw [if_pos hp, if_pos hp, List.append_nil]
          · rw [if_neg hp, if_neg hp]
        rw [hpath]
        cases hr : raw ch.lower n with
        | true =>
          obtain ⟨s, hs, _⟩ := hg.2.2.1 hr
          subst hs
          rw [toNode] at hsh
          cases hsh
          unfold textNodes
          by_cases hs : s = []
          · subst hs; rfl
          · rw [if_neg hs, marksAll, marks, marksAll, List.append_nil, filter_marks]; rfl
        | false => exact shown_marks _ c kids' (hg.2.2.2 hr) hsh
      generalize toNode ch c = cn at h key
      cases h with
      | tag _ _ _ _ kids' name e d' cls attrs _ _ hsh h1 h2 _ _ _ => exact key kids' hsh name e attrs h1 h2
      | supsub => exact absurd rfl hplain.1
      | symbol => exact absurd rfl hsym
  | .list l, hg =>
    rw [toNode] at h
    rw [vm]
    exact showns_marks names l kids hg.2 h
theorem showns_marks (names : List Str) (l : List Val) (kids : List Html) (hg : GoodAll ch Q l)
    (h : Shown ch.sp ch.lower (.list (toNodes ch l)) kids) :
    (marksAll (around ch.lower names) kids).filter (inked ch.sp) = vms ch.lower (gm ch) names l := by
  match l, hg with
  | [], _ =>
    rw [toNodes] at h
    cases h
    rfl
  | v :: l, hg =>
    rw [toNodes] at h
    cases h with
    | cons _ _ x y hx hy =>
      rw [marksAll_append, List.filter_append, vms, shown_marks names v x hg.1.1 hx, showns_marks names l y hg.2 hy]
end

/-! ### LaTeX -/

/-- The words of a text. -/
def gw (ch : Chars) (_ : List Str) (s : Str) : Str := s.filter (!ch.sp ·)

theorem gw_additive : Additive ch.sp (gw ch) := by
  refine ⟨fun p a b => by simp [gw], ?_⟩
  intro p s hs
  simp only [gw, List.filter_eq_nil_iff]
  intro c hc
  simp [hs c hc]

mutual
theorem texts_words (names : List Str) (v : Val) (us : List Str) (hg : Good ch Q v)
    (h : HasTexts ch.sp true (toNode ch v) us) : us.flatten.filter (!ch.sp ·) = vm ch.lower (gw ch) names v := by
  match v, hg with
  | .str s, _ =>
    rw [toNode] at h
    cases h
    simp [vm, gw]
  | .tag n a b c, hg =>
    rw [toNode] at h
    obtain ⟨k, hk⟩ := Option.ne_none_iff_exists'.1 hg.1.1
    rw [hk, Option.getD_some] at h
    rw [vm]
    have hplain := kind_plain _ _ _ hk
    have key : ∀ us', HasTexts ch.sp true (toNode ch c) us' → us'.flatten.filter (!ch.sp ·) =
        vm ch.lower (gw ch) (if ch.lower n = "p".toList then names else names ++ [n]) c := by
      intro us' hu
      cases hr : raw ch.lower n with
      | true =>
        obtain ⟨s, hs, _⟩ := hg.2.2.1 hr
        subst hs
        rw [toNode] at hu
        cases hu
        simp [vm, gw]
      | false => exact texts_words _ c us' (hg.2.2.2 hr) hu
    match c, key with
    | .str s, key =>
      rw [toNode] at h key
      cases h with
      | supsub => exact absurd rfl hplain.1
      | symbol _ _ _ s' ht =>
        rw [← key [s] (.str s)]
        simpa using filter_trimmed ht
      | verb => exact key [s] (.str s)
      | tag _ _ _ _ _ _ hc => exact key us hc
    | .tag n' a' b' c', key =>
      rw [toNode] at h key
      cases h with
      | tag _ _ _ _ _ _ hc => exact key us hc
    | .list l, key =>
      rw [toNode] at h key
      cases h with
      | tag _ _ _ _ _ _ hc => exact key us hc
  | .list l, hg =>
    rw [toNode] at h
    rw [vm]
    exact textss_words names l us hg.2 h
theorem textss_words (names : List Str) (l : List Val) (us : List Str) (hg : GoodAll ch Q l)
    (h : HasTexts ch.sp true (.list (toNodes ch l)) us) : us.flatten.filter (!ch.sp ·) = vms ch.lower (gw ch) names l := by
  match l, hg with
  | [], _ =>
    rw [toNodes] at h
    cases h
    rfl
  | v :: l, hg =>
    rw [toNodes] at h
    cases h with
    | cons _ _ x y hx hy =>
      rw [List.flatten_append, List.filter_append, vms, texts_words names v x hg.1.1 hx, textss_words names l y hg.2 hy]
end

/-- A verbatim text that LaTeX has a delimiter for, or that is in an environment. -/
def Delimited (n s : Str) : Prop := n ≠ "verbatim".toList → '|' ∉ s ∨ '!' ∉ s ∨ '^' ∉ s

theorem verb_raw (n : Str) (h : kindOf ch.lower n = some .verb) : raw ch.lower n = true := by
  unfold raw; rw [h]; rfl

mutual
theorem sayable_good (v : Val) (hg : Good ch Delimited v) : Sayable (toNode ch v) := by
  match v, hg with
  | .str s, _ => rw [toNode]; trivial
  | .tag n a b c, hg =>
    obtain ⟨k, hk⟩ := Option.ne_none_iff_exists'.1 hg.1.1
    rw [toNode, hk, Option.getD_some, Sayable]
    refine ⟨(kind_plain _ _ _ hk).2, ?_, ?_⟩
    · intro hv hn s hs
      subst hv
      obtain ⟨t, ht, _, hd⟩ := hg.2.2.1 (verb_raw n hk)
      subst ht
      rw [toNode] at hs
      cases hs
      exact hd hn
    · cases hr : raw ch.lower n with
      | true =>
        obtain ⟨t, ht, _, hd⟩ := hg.2.2.1 hr
        subst ht
        rw [toNode]; trivial
      | false => exact sayable_good c (hg.2.2.2 hr)
  | .list l, hg => rw [toNode, Sayable]; exact sayables_good l hg.2
theorem sayables_good (l : List Val) (hg : GoodAll ch Delimited l) : SayableAll (toNodes ch l) := by
  match l, hg with
  | [], _ => rw [toNodes]; trivial
  | v :: l, hg => rw [toNodes]; exact ⟨sayable_good v hg.1.1, sayables_good l hg.2⟩
end

theorem toNodes_map (l : List Val) : toNodes ch l = l.map (toNode ch) := by
  induction l with
  | nil => rfl
  | cons v l ih => rw [toNodes, ih]; rfl

mutual
theorem flat_good (ks : List Kind) (hks : ∀ k ∈ ks, k ∈ Render.Spec.leaves) (m : Option Bool) (v : Val) (hg : Good ch Q v) : Flat ks m (toNode ch v) := by
  match v, hg with
  | .str s, _ => rw [toNode]; trivial
  | .tag n a b c, hg =>
    obtain ⟨k, hk⟩ := Option.ne_none_iff_exists'.1 hg.1.1
    rw [toNode, hk, Option.getD_some, Flat]
    refine ⟨fun h => absurd h (kind_plain _ _ _ hk).1, ?_, ?_⟩
    · intro hks'
      have hv : k ∈ Render.Spec.leaves := hks k hks'
      simp only [Render.Spec.leaves, List.mem_cons, List.not_mem_nil, or_false] at hv
      rcases hv with rfl | rfl | rfl
      · exact absurd rfl (kind_plain _ _ _ hk).1
      · obtain ⟨s, rfl⟩ := hg.1.2 hk
        exact ⟨s, by rw [toNode]⟩
      · obtain ⟨t, rfl, _⟩ := hg.2.2.1 (verb_raw n hk)
        exact ⟨t, by rw [toNode]⟩
    · cases hr : raw ch.lower n with
      | true =>
        obtain ⟨t, ht, _, hd⟩ := hg.2.2.1 hr
        subst ht
        rw [toNode]; trivial
      | false => exact flat_good ks hks m c (hg.2.2.2 hr)
  | .list l, hg =>
    rw [toNode, Flat]
    refine ⟨.inl ?_, flats_good ks hks m l hg.2⟩
    intro n hn
    rw [toNodes_map] at hn
    obtain ⟨v, hv, rfl⟩ := List.mem_map.1 hn
    have := ((goodAll_iff ch Q l).1 hg.2 v hv).2.1
    rintro ⟨l', hl⟩
    cases v with
    | str s => rw [toNode] at hl; cases hl
    | tag n a b c => rw [toNode] at hl; cases hl
    | list l => simp [isList] at this
theorem flats_good (ks : List Kind) (hks : ∀ k ∈ ks, k ∈ Render.Spec.leaves) (m : Option Bool) (l : List Val) (hg : GoodAll ch Q l) : FlatAll ks m (toNodes ch l) := by
  match l, hg with
  | [], _ => rw [toNodes]; trivial
  | v :: l, hg => rw [toNodes]; exact ⟨flat_good ks hks m v hg.1.1, flats_good ks hks m l hg.2⟩
end

end Verif.Page
