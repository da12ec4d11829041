import Verif.Lemmas.Render

/-!
# Lemmas on the rendering of tags in html
-/

set_option linter.unusedSimpArgs false
set_option linter.unusedVariables false

namespace Verif.Render

open Verif Verif.Attrs Verif.Attrs.Spec Verif.Formats Verif.Render.Spec

theorem class_allowed (name : Str) (h : ¬ (name ∈ xhtmlArguments.keys ∨ name ∈ xhtmlOptionals.keys)) :
    "class".toList ∈ allowedAttrs xhtmlArguments xhtmlOptionals name := by
  unfold allowedAttrs
  rw [if_neg h]
  decide

/-- An element. -/
theorem element_ok (name : Str) (d : ADict) (parts : List (Part (Option Html))) (h : Html) (he : element name d parts = .ok h) :
    ∃ e attrs kids, h = .elem e attrs kids ∧ toKids (cleanParts parts) = .ok kids ∧ Allowed name e ∧ AttrsOf name d attrs := by
  unfold element at he
  split at he
  · simp at he
  · rename_i e hx
    obtain ⟨h1, h2, h3⟩ := C30_element trackedTargets xhtmlArguments xhtmlOptionals trackedTargets_good C30_settings name d none
      (by simp) parts e hx
    have hc : e.content = cleanParts parts := h3
    rw [hc] at he
    cases hk : toKids (cleanParts parts) with
    | error err => rw [hk] at he; simp [Except.map] at he
    | ok kids =>
      rw [hk] at he
      simp only [Except.map, Except.ok.injEq] at he
      refine ⟨e.name, e.attrs, kids, he.symm, rfl, ?_, ?_⟩
      · unfold Allowed
        by_cases hn : name ∈ xhtmlArguments.keys ∨ name ∈ xhtmlOptionals.keys
        · rw [if_pos hn] at h1; exact Or.inl ⟨hn, h1⟩
        · rw [if_neg hn] at h1; exact Or.inr ⟨hn, h1⟩
      · intro k v
        rw [h2 k v]
        constructor
        · rintro (h | ⟨hn, rfl, rfl, hc⟩)
          · exact Or.inl h
          · refine Or.inr ⟨hn, rfl, rfl, ?_⟩
            apply Classical.byContradiction
            intro hne
            exact hc ⟨class_allowed _ hn, hne⟩
        · rintro (h | ⟨hn, rfl, rfl, hc⟩)
          · exact Or.inl h
          · exact Or.inr ⟨hn, rfl, rfl, fun h' => h'.2 hc⟩

/-- When there is an element. -/
theorem element_exists (name : Str) (d : ADict) (parts : List (Part (Option Html))) (kids : List Html)
    (hk : toKids (cleanParts parts) = .ok kids) (h1 : ∀ r ∈ namesOf xhtmlArguments name, d.get? r ≠ none)
    (h2 : ∀ a ∈ allowedAttrs xhtmlArguments xhtmlOptionals name, ∀ t, d.get? a ≠ some (.pos t)) :
    ∃ h, element name d parts = .ok h := by
  obtain ⟨e1, e2, e3⟩ := C30_error (α := Option Html) trackedTargets xhtmlArguments xhtmlOptionals trackedTargets_good C30_settings name d none
      (by simp) parts
  unfold element
  cases hx : xhtmlTag trackedTargets (nameTable xhtmlArguments) (nameTable xhtmlOptionals) name d none parts with
  | ok e =>
    obtain ⟨_, _, h3⟩ := C30_element trackedTargets xhtmlArguments xhtmlOptionals trackedTargets_good C30_settings name d none
      (by simp) parts e hx
    have hc : e.content = cleanParts parts := h3
    simp only
    rw [hc, hk]
    exact ⟨_, rfl⟩
  | error err =>
    exfalso
    cases err with
    | arguments => obtain ⟨r, hr, hn⟩ := e1.1 hx; exact h1 r hr hn
    | keyError => exact e3 hx
    | typeError => obtain ⟨_, a, ha, t, ht⟩ := e2.1 hx; exact h2 a ha t ht

theorem withClass_set (d : ADict) (c : AVal) : WithClass d (d.set "class".toList c) (some c) := by
  intro k
  by_cases hk : k = "class".toList
  · subst hk; rw [if_pos rfl, Dict.get?_set_self]
  · rw [if_neg hk, Dict.get?_set, if_neg (Ne.symm hk)]

theorem withClass_same (d : ADict) : WithClass d d (d.get? "class".toList) := by
  intro k
  by_cases hk : k = "class".toList
  · subst hk; rw [if_pos rfl]
  · rw [if_neg hk]

theorem htmlAttrs_ok (k : Kind) (d d' : ADict) (h : htmlAttrs k d = .ok d') :
    ∃ cls, ClassOf k (d.get? "class".toList) cls ∧ WithClass d d' cls := by
  have box : ∀ (k : Kind) (c : String), (k, c, true) ∈ classes →
      (match d.get? "class".toList with
        | some (.str v) => .ok (d.set "class".toList (.str (v ++ ' ' :: c.toList)))
        | some (.pos _) => .error .type
        | none => .ok (d.set "class".toList (.str c.toList))) = Except.ok (ε := RErr) d' →
      ∃ cls, ClassOf k (d.get? "class".toList) cls ∧ WithClass d d' cls := by
    intro k c hc hm
    cases hg : d.get? "class".toList with
    | none =>
      rw [hg] at hm
      simp only [Except.ok.injEq] at hm
      subst hm
      exact ⟨_, .alone k c hc, withClass_set _ _⟩
    | some v =>
      rw [hg] at hm
      cases v with
      | str v =>
        simp only [Except.ok.injEq] at hm
        subst hm
        exact ⟨_, .after k v c hc, withClass_set _ _⟩
      | pos t => simp at hm
  have fig : ∀ (k : Kind) (c : String), (k, c) ∈ figureClasses →
      Except.ok (ε := RErr) (d.set "class".toList (.str (if d.has "class".toList then ' ' :: c.toList else c.toList))) = .ok d' →
      ∃ cls, ClassOf k (d.get? "class".toList) cls ∧ WithClass d d' cls := by
    intro k c hc hm
    simp only [Except.ok.injEq] at hm
    subst hm
    cases hg : d.get? "class".toList with
    | none =>
      refine ⟨_, .figure k none c [] hc (fun _ => rfl) (fun h => absurd rfl h), ?_⟩
      have hh : d.has "class".toList = false := by unfold Dict.has; rw [hg]; rfl
      rw [hh]
      exact withClass_set d (.str c.toList)
    | some v =>
      refine ⟨_, .figure k (some v) c [' '] hc (fun h => by simp at h) (fun _ => rfl), ?_⟩
      have hh : d.has "class".toList = true := by unfold Dict.has; rw [hg]; rfl
      rw [hh]
      exact withClass_set d (.str (' ' :: c.toList))
  cases k with
  | body =>
    simp only [htmlAttrs, Except.ok.injEq] at h
    subst h
    exact ⟨_, .replaced .body _ "body" (by decide), withClass_set _ _⟩
  | featurebox => exact box .featurebox "featurebox" (by decide) h
  | examplebox => exact box .examplebox "featurebox examplebox" (by decide) h
  | problembox => exact box .problembox "featurebox problembox" (by decide) h
  | marginfigure => exact fig .marginfigure "marginfig" (by decide) h
  | figure => exact fig .figure "figure" (by decide) h
  | fullfigure => exact fig .fullfigure "fullfigure" (by decide) h
  | _ =>
    simp only [htmlAttrs, boxClasses, figureClass, Except.ok.injEq] at h
    subst h
    exact ⟨_, .same _ _ (by simp [classes]) (by simp [figureClasses]), withClass_same d⟩

theorem htmlName_ok (lower : Str → Str) (k : Kind) (n : Str) (h1 : k ≠ .supsub) (h2 : k ≠ .symbol) :
    ElementOf lower k n (htmlName lower k n) := by
  cases k <;> first
    | exact absurd rfl h1
    | exact absurd rfl h2
    | exact Or.inr ⟨by decide, rfl⟩
    | exact Or.inl ⟨_, by simp [elements], rfl⟩

theorem cleanParts_append (a b : List (Part (Option Html))) : cleanParts (a ++ b) = cleanParts a ++ cleanParts b := by
  simp [cleanParts]

theorem toKids_append (a b : List (Part (Option Html))) (kids : List Html) (h : toKids (a ++ b) = .ok kids) :
    ∃ x y, toKids a = .ok x ∧ toKids b = .ok y ∧ kids = x ++ y := by
  induction a generalizing kids with
  | nil => exact ⟨[], kids, rfl, h, rfl⟩
  | cons p a ih =>
    cases p with
    | none => simp [toKids] at h
    | text s =>
      simp only [List.cons_append, toKids] at h ⊢
      cases hr : toKids (a ++ b) with
      | error e => rw [hr] at h; simp [Except.map] at h
      | ok r =>
        rw [hr] at h
        simp only [Except.map, Except.ok.injEq] at h
        obtain ⟨x, y, hx, hy, rfl⟩ := ih r hr
        exact ⟨.text s :: x, y, by rw [hx]; rfl, hy, by simp [← h]⟩
    | elem o =>
      cases o with
      | none => simp [toKids] at h
      | some e =>
        simp only [List.cons_append, toKids] at h ⊢
        cases hr : toKids (a ++ b) with
        | error e => rw [hr] at h; simp [Except.map] at h
        | ok r =>
          rw [hr] at h
          simp only [Except.map, Except.ok.injEq] at h
          obtain ⟨x, y, hx, hy, rfl⟩ := ih r hr
          exact ⟨e :: x, y, by rw [hx]; rfl, hy, by simp [← h]⟩

theorem toKids_append_ok (a b : List (Part (Option Html))) (x y : List Html) (ha : toKids a = .ok x) (hb : toKids b = .ok y) :
    toKids (a ++ b) = .ok (x ++ y) := by
  induction a generalizing x with
  | nil => simp only [toKids, Except.ok.injEq] at ha; subst ha; exact hb
  | cons p a ih =>
    cases p with
    | none => simp [toKids] at ha
    | text s =>
      simp only [List.cons_append, toKids] at ha ⊢
      cases hr : toKids a with
      | error e => rw [hr] at ha; simp [Except.map] at ha
      | ok r =>
        rw [hr] at ha
        simp only [Except.map, Except.ok.injEq] at ha
        rw [ih r hr, ← ha]
        rfl
    | elem o =>
      cases o with
      | none => simp [toKids] at ha
      | some e =>
        simp only [List.cons_append, toKids] at ha ⊢
        cases hr : toKids a with
        | error e => rw [hr] at ha; simp [Except.map] at ha
        | ok r =>
          rw [hr] at ha
          simp only [Except.map, Except.ok.injEq] at ha
          rw [ih r hr, ← ha]
          rfl

theorem toKids_text (s : Str) : toKids (cleanParts [.text s]) = .ok (textNodes s) := by
  unfold cleanParts textNodes
  cases s with
  | nil => simp [toKids]
  | cons c s => simp [toKids, Except.map]

theorem toKids_elem (h : Html) : toKids (cleanParts [.elem (some h)]) = .ok [h] := rfl

theorem rawParts_shown (sp : Char → Bool) (lower : Str → Str) (l : List Node) :
    (∀ kids, toKids (cleanParts (rawParts l)) = .ok kids → Shown sp lower (.list l) kids) ∧
    ((∀ n ∈ l, IsStr n) → ∃ kids, toKids (cleanParts (rawParts l)) = .ok kids) := by
  induction l with
  | nil =>
    refine ⟨?_, fun _ => ⟨[], rfl⟩⟩
    intro kids h
    simp only [rawParts, List.map_nil, cleanParts, List.filter_nil, toKids, Except.ok.injEq] at h
    subst h
    exact .nil
  | cons n l ih =>
    cases n with
    | str s =>
      have hc : cleanParts (rawParts (.str s :: l)) = cleanParts [.text s] ++ cleanParts (rawParts l) := by
        rw [← cleanParts_append]; rfl
      rw [hc]
      constructor
      · intro kids h
        obtain ⟨x, y, hx, hy, rfl⟩ := toKids_append _ _ _ h
        rw [toKids_text] at hx
        simp only [Except.ok.injEq] at hx
        subst hx
        exact .cons _ l _ _ (.str s) (ih.1 y hy)
      · intro hs
        obtain ⟨y, hy⟩ := ih.2 fun n hn => hs n (by simp [hn])
        exact ⟨_, toKids_append_ok _ _ _ _ (toKids_text s) hy⟩
    | tag k nm d c =>
      refine ⟨?_, ?_⟩
      · intro kids h
        simp [rawParts, cleanParts, toKids] at h
      · intro hs
        obtain ⟨s, h⟩ := hs (.tag k nm d c) (by simp)
        simp at h
    | list l' =>
      refine ⟨?_, ?_⟩
      · intro kids h
        simp [rawParts, cleanParts, toKids] at h
      · intro hs
        obtain ⟨s, h⟩ := hs (.list l') (by simp)
        simp at h
    | eq b nm d col c html =>
      refine ⟨?_, ?_⟩
      · intro kids h
        simp [rawParts, cleanParts, toKids] at h
      · intro hs
        obtain ⟨s, h⟩ := hs (.eq b nm d col c html) (by simp)
        simp at h
    | other ts tx html =>
      refine ⟨?_, ?_⟩
      · intro kids h
        simp [rawParts, cleanParts, toKids] at h
      · intro hs
        obtain ⟨s, h⟩ := hs (.other ts tx html) (by simp)
        simp at h

theorem br_ok : element "br".toList [] [] = .ok (.elem "br".toList [] []) := rfl

theorem htmlLeaf_none (sp : Char → Bool) (k : Kind) (d : ADict) (c : Node) (h1 : k ≠ .supsub) (h2 : k ≠ .symbol) :
    htmlLeaf sp k d c = none := by
  cases k <;> first | rfl | exact absurd rfl h1 | exact absurd rfl h2

theorem htmlLeaf_shown (sp : Char → Bool) (lower : Str → Str) (k : Kind) (n : Str) (d : ADict) (c : Node)
    (hk : k = .supsub ∨ k = .symbol) : ∃ r, htmlLeaf sp k d c = some r ∧ ∀ h, r = .ok h → Shown sp lower (.tag k n d c) [h] := by
  rcases hk with rfl | rfl
  · refine ⟨_, rfl, ?_⟩
    intro h hh
    cases c with
    | str s =>
      simp only at hh
      cases hp : supsubParts sp s with
      | none => rw [hp] at hh; simp at hh
      | some ab =>
        obtain ⟨a', b'⟩ := ab
        obtain ⟨a, b, hs, ha, hb⟩ := (supsubParts_eq sp s).1 a' b' hp
        rw [hp] at hh
        simp only [br_ok, Except.bind] at hh
        obtain ⟨e, attrs, kids, rfl, hkids, hal, hat⟩ := element_ok _ _ _ _ hh
        have hspan : e = "span".toList := by
          rcases hal with ⟨_, h⟩ | ⟨_, h⟩ <;> exact h
        subst hspan
        have hk2 : kids = textNodes a' ++ [.elem "br".toList [] []] ++ textNodes b' := by
          have : cleanParts [Part.text a', .elem (some (Html.elem "br".toList [] [])), .text b'] =
              (cleanParts [Part.text a'] ++ cleanParts [.elem (some (Html.elem "br".toList [] []))]) ++ cleanParts [.text b'] := by
            rw [← cleanParts_append, ← cleanParts_append]; rfl
          rw [this, toKids_append_ok _ _ _ _ (toKids_append_ok _ _ _ _ (toKids_text a') (toKids_elem _)) (toKids_text b')] at hkids
          simp only [Except.ok.injEq] at hkids
          exact hkids.symm
        subst hk2
        exact .supsub n d s a b a' b' _ attrs hs ha hb (withClass_set _ _) hat
    | tag => simp at hh
    | list => simp at hh
    | eq => simp at hh
    | other => simp at hh
  · refine ⟨_, rfl, ?_⟩
    intro h hh
    cases c with
    | str s =>
      simp only [Except.ok.injEq] at hh
      subst hh
      exact .symbol n d s _ (strip_trimmed sp s)
    | tag => simp at hh
    | list => simp at hh
    | eq => simp at hh
    | other => simp at hh

mutual
/-- What is shown. -/
theorem shown (sp : Char → Bool) (lower : Str → Str) : ∀ (n : Node) (parts : List (Part (Option Html))) (kids : List Html),
    htmlFmt sp lower n = .ok parts → toKids (cleanParts parts) = .ok kids → Shown sp lower n kids
  | .str s, parts, kids, h, hk => by
    simp only [htmlFmt, Except.ok.injEq] at h
    subst h
    rw [toKids_text] at hk
    simp only [Except.ok.injEq] at hk
    subst hk
    exact .str s
  | .tag k nm d c, parts, kids, h, hk => by
    simp only [htmlFmt] at h
    by_cases hl : k = .supsub ∨ k = .symbol
    · obtain ⟨r, hr, hs⟩ := htmlLeaf_shown sp lower k nm d c hl
      rw [hr] at h
      simp only at h
      cases r with
      | error e => simp [Except.map] at h
      | ok x =>
        simp only [Except.map, Except.ok.injEq] at h
        subst h
        rw [toKids_elem] at hk
        simp only [Except.ok.injEq] at hk
        subst hk
        exact hs x rfl
    · have h1 : k ≠ .supsub := fun h => hl (Or.inl h)
      have h2 : k ≠ .symbol := fun h => hl (Or.inr h)
      rw [htmlLeaf_none sp k d c h1 h2] at h
      simp only at h
      cases ha : htmlAttrs k d with
      | error e => rw [ha] at h; simp at h
      | ok d' =>
        rw [ha] at h
        simp only at h
        cases hc : htmlFmt sp lower c with
        | error e => rw [hc] at h; simp at h
        | ok ps =>
          rw [hc] at h
          simp only at h
          cases he : element (htmlName lower k nm) d' ps with
          | error e => rw [he] at h; simp [Except.map] at h
          | ok x =>
            rw [he] at h
            simp only [Except.map, Except.ok.injEq] at h
            subst h
            rw [toKids_elem] at hk
            simp only [Except.ok.injEq] at hk
            subst hk
            obtain ⟨e, attrs, ks, rfl, hks, hal, hat⟩ := element_ok _ _ _ _ he
            obtain ⟨cls, hcls, hwith⟩ := htmlAttrs_ok k d d' ha
            exact .tag k nm d c ks _ e d' cls attrs h1 h2 (shown sp lower c ps ks hc hks) (htmlName_ok lower k nm h1 h2) hal hcls
              hwith hat
  | .eq b nm d col c html, parts, kids, h, hk => by
    simp only [htmlFmt] at h
    cases html with
    | error e => simp [Except.map] at h
    | ok x =>
      simp only [Except.map, Except.ok.injEq] at h
      subst h
      rw [toKids_elem] at hk
      simp only [Except.ok.injEq] at hk
      subst hk
      exact .eq b nm d col c x
  | .other ts tx html, parts, kids, h, hk => by
    simp only [htmlFmt] at h
    cases html with
    | error e => simp [Except.map] at h
    | ok x =>
      simp only [Except.map, Except.ok.injEq] at h
      subst h
      rw [toKids_elem] at hk
      simp only [Except.ok.injEq] at hk
      subst hk
      exact .other ts tx x
  | .list l, parts, kids, h, hk => by
    by_cases hsing : ∃ l', l = [.list l']
    · obtain ⟨l', rfl⟩ := hsing
      simp only [htmlFmt, Except.ok.injEq] at h
      subst h
      have := (rawParts_shown sp lower l').1 kids hk
      have := Shown.cons (sp := sp) (lower := lower) (.list l') [] kids [] this .nil
      simpa using this
    · have : htmlFmt sp lower (.list l) = htmlItems sp lower l := by
        unfold htmlFmt
        split
        · rename_i heq; simp at heq
        · rename_i l' heq
          simp at heq
          exact absurd ⟨l', heq⟩ hsing
        · rename_i heq; simp at heq; rw [heq]
        · rename_i heq; simp at heq
        · rename_i heq; simp at heq
        · rename_i heq; simp at heq
      rw [this] at h
      exact shownItems sp lower l parts kids h hk
theorem shownItems (sp : Char → Bool) (lower : Str → Str) : ∀ (l : List Node) (parts : List (Part (Option Html))) (kids : List Html),
    htmlItems sp lower l = .ok parts → toKids (cleanParts parts) = .ok kids → Shown sp lower (.list l) kids
  | [], parts, kids, h, hk => by
    simp only [htmlItems, Except.ok.injEq] at h
    subst h
    simp only [cleanParts, List.filter_nil, toKids, Except.ok.injEq] at hk
    subst hk
    exact .nil
  | .str s :: l, parts, kids, h, hk => by
    simp only [htmlItems] at h
    cases hr : htmlItems sp lower l with
    | error e => rw [hr] at h; simp [Except.map] at h
    | ok r =>
      rw [hr] at h
      simp only [Except.map, Except.ok.injEq] at h
      subst h
      have hc : cleanParts (.text s :: r) = cleanParts [.text s] ++ cleanParts r := by
        rw [← cleanParts_append]; rfl
      rw [hc] at hk
      obtain ⟨x, y, hx, hy, rfl⟩ := toKids_append _ _ _ hk
      rw [toKids_text] at hx
      simp only [Except.ok.injEq] at hx
      subst hx
      exact .cons _ l _ _ (.str s) (shownItems sp lower l r y hr hy)
  | .list l' :: l, parts, kids, h, hk => by
    simp only [htmlItems] at h
    cases hr : htmlItems sp lower l with
    | error e => rw [hr] at h; simp [Except.map] at h
    | ok r =>
      rw [hr] at h
      simp only [Except.map, Except.ok.injEq] at h
      subst h
      simp [cleanParts, toKids] at hk
  | .tag k nm d c :: l, parts, kids, h, hk => by
    simp only [htmlItems] at h
    cases ht : htmlFmt sp lower (.tag k nm d c) with
    | error e => rw [ht] at h; simp at h
    | ok ps =>
      rw [ht] at h
      simp only at h
      cases hr : htmlItems sp lower l with
      | error e => rw [hr] at h; simp [Except.map] at h
      | ok r =>
        rw [hr] at h
        simp only [Except.map, Except.ok.injEq] at h
        subst h
        rw [cleanParts_append] at hk
        obtain ⟨x, y, hx, hy, rfl⟩ := toKids_append _ _ _ hk
        exact .cons _ l _ _ (shown sp lower (.tag k nm d c) ps x ht hx) (shownItems sp lower l r y hr hy)
  | .eq b nm d col c html :: l, parts, kids, h, hk => by
    simp only [htmlItems] at h
    cases ht : htmlFmt sp lower (.eq b nm d col c html) with
    | error e => rw [ht] at h; simp at h
    | ok ps =>
      rw [ht] at h
      simp only at h
      cases hr : htmlItems sp lower l with
      | error e => rw [hr] at h; simp [Except.map] at h
      | ok r =>
        rw [hr] at h
        simp only [Except.map, Except.ok.injEq] at h
        subst h
        rw [cleanParts_append] at hk
        obtain ⟨x, y, hx, hy, rfl⟩ := toKids_append _ _ _ hk
        exact .cons _ l _ _ (shown sp lower (.eq b nm d col c html) ps x ht hx) (shownItems sp lower l r y hr hy)
  | .other ts tx html :: l, parts, kids, h, hk => by
    simp only [htmlItems] at h
    cases ht : htmlFmt sp lower (.other ts tx html) with
    | error e => rw [ht] at h; simp at h
    | ok ps =>
      rw [ht] at h
      simp only at h
      cases hr : htmlItems sp lower l with
      | error e => rw [hr] at h; simp [Except.map] at h
      | ok r =>
        rw [hr] at h
        simp only [Except.map, Except.ok.injEq] at h
        subst h
        rw [cleanParts_append] at hk
        obtain ⟨x, y, hx, hy, rfl⟩ := toKids_append _ _ _ hk
        exact .cons _ l _ _ (shown sp lower (.other ts tx html) ps x ht hx) (shownItems sp lower l r y hr hy)
end

/-! ### When there is an element -/

/-- The tags whose content has to be text in html. -/
abbrev htmlLeaves : List Kind := [.supsub, .symbol]

theorem elementOf_eq (lower : Str → Str) (k : Kind) (n name : Str) (h : ElementOf lower k n name) : name = htmlName lower k n := by
  rcases h with ⟨s, hs, rfl⟩ | ⟨hk, rfl⟩
  · simp only [elements, List.mem_cons, Prod.mk.injEq, List.not_mem_nil, or_false] at hs
    rcases hs with hs | hs | hs | hs | hs | hs | hs | hs | hs | hs | hs | hs | hs | hs | hs | hs | hs | hs | hs | hs <;> (obtain ⟨rfl, rfl⟩ := hs; rfl)
  · simp only [List.mem_cons, List.not_mem_nil, or_false] at hk
    rcases hk with rfl | rfl <;> rfl

theorem required_ne_class (name r : Str) (h : r ∈ namesOf xhtmlArguments name) : r ≠ "class".toList := by
  unfold namesOf at h
  cases hg : xhtmlArguments.get? name with
  | none => rw [hg] at h; simp at h
  | some l =>
    rw [hg] at h
    have hm := Dict.mem_of_get? _ _ _ hg
    simp only [Option.getD_some] at h
    simp only [xhtmlArguments, List.mem_cons, Prod.mk.injEq, List.not_mem_nil, or_false] at hm
    rcases hm with ⟨_, rfl⟩ | ⟨_, rfl⟩ | ⟨_, rfl⟩ <;> simp at h <;> subst h <;> decide

theorem element_fine (name : Str) (d : ADict) (parts : List (Part (Option Html))) (h : Html) (he : element name d parts = .ok h) :
    (∀ r ∈ namesOf xhtmlArguments name, d.get? r ≠ none) ∧
    (∀ a ∈ allowedAttrs xhtmlArguments xhtmlOptionals name, ∀ t, d.get? a ≠ some (.pos t)) := by
  obtain ⟨e1, e2, e3⟩ := C30_error (α := Option Html) trackedTargets xhtmlArguments xhtmlOptionals trackedTargets_good C30_settings name d none
      (by simp) parts
  unfold element at he
  cases hx : xhtmlTag trackedTargets (nameTable xhtmlArguments) (nameTable xhtmlOptionals) name d none parts with
  | error err => rw [hx] at he; simp at he
  | ok e =>
    have n1 : ¬ ∃ r ∈ namesOf xhtmlArguments name, valueOf d none r = none := fun h' => by
      have := e1.2 h'; rw [hx] at this; simp at this
    constructor
    · intro r hr hn; exact n1 ⟨r, hr, hn⟩
    · intro a ha t ht
      have := e2.2 ⟨n1, a, ha, t, ht⟩
      rw [hx] at this; simp at this

theorem span_attrs (a : Str) : a ∈ allowedAttrs xhtmlArguments xhtmlOptionals "span".toList ↔
    a = "class".toList ∨ a ∈ ["id".toList, "style".toList] := by
  have : allowedAttrs xhtmlArguments xhtmlOptionals "span".toList = ["class".toList, "id".toList, "style".toList] := by decide
  rw [this]; simp

theorem span_required : namesOf xhtmlArguments "span".toList = [] := by decide

theorem supsub_fine (d : ADict) (parts : List (Part (Option Html))) (kids : List Html) (hk : toKids (cleanParts parts) = .ok kids) :
    (∃ h, element "span".toList (d.set "class".toList (.str "supsub".toList)) parts = .ok h) ↔
      ∀ a ∈ ["id".toList, "style".toList], ∀ t, d.get? a ≠ some (.pos t) := by
  constructor
  · rintro ⟨h, he⟩ a ha t ht
    refine (element_fine _ _ _ _ he).2 a ((span_attrs a).2 (Or.inr ha)) t ?_
    rw [Dict.get?_set, if_neg]
    · exact ht
    · rintro rfl; simp at ha
  · intro hf
    apply element_exists _ _ _ kids hk
    · rw [span_required]; simp
    · intro a ha t ht
      rw [Dict.get?_set] at ht
      rcases (span_attrs a).1 ha with rfl | ha'
      · simp at ht
      · rw [if_neg] at ht
        · exact hf a ha' t ht
        · rintro rfl; simp at ha'

/-- When the attributes of a tag can be used. -/
theorem attrs_fine (lower : Str → Str) (k : Kind) (n : Str) (d : ADict) (parts : List (Part (Option Html))) (kids : List Html)
    (hk : toKids (cleanParts parts) = .ok kids) :
    (∃ d', htmlAttrs k d = .ok d' ∧ ∃ h, element (htmlName lower k n) d' parts = .ok h) ↔
      (∀ r ∈ namesOf xhtmlArguments (htmlName lower k n), d.get? r ≠ none) ∧
      (∀ a ∈ allowedAttrs xhtmlArguments xhtmlOptionals (htmlName lower k n), a ≠ "class".toList → ∀ t, d.get? a ≠ some (.pos t)) ∧
      ClassFine k (htmlName lower k n) d := by
  constructor
  · rintro ⟨d', hd, h, he⟩
    obtain ⟨cls, hc, hw⟩ := htmlAttrs_ok k d d' hd
    obtain ⟨f1, f2⟩ := element_fine _ _ _ _ he
    refine ⟨?_, ?_, ?_⟩
    · intro r hr
      have := f1 r hr
      rwa [hw r, if_neg (required_ne_class _ _ hr)] at this
    · intro a ha hne t
      have := f2 a ha t
      rwa [hw a, if_neg hne] at this
    · have box : ∀ v, (match v with
          | some (.str v) => .ok (d.set "class".toList (.str (v ++ ' ' :: ((boxClasses k).getD []))))
          | some (.pos _) => .error .type
          | none => .ok (d.set "class".toList (.str ((boxClasses k).getD [])))) = Except.ok (ε := RErr) d' →
          ∀ t, v ≠ some (AVal.pos t) := by
        rintro v hv t rfl
        simp at hv
      unfold ClassFine
      cases k with
      | body => simp
      | marginfigure => simp
      | figure => simp
      | fullfigure => simp
      | featurebox => exact Or.inr (Or.inl (box _ hd))
      | examplebox => exact Or.inr (Or.inl (box _ hd))
      | problembox => exact Or.inr (Or.inl (box _ hd))
      | _ =>
        right
        simp only [htmlAttrs, boxClasses, figureClass, Except.ok.injEq] at hd
        subst hd
        apply Classical.byCases (p := "class".toList ∈ allowedAttrs xhtmlArguments xhtmlOptionals (htmlName lower _ n))
        · intro ha
          exact Or.inl (f2 _ ha)
        · intro ha
          exact Or.inr ⟨by decide, ha⟩
  · rintro ⟨f1, f2, f3⟩
    have hd : ∃ d', htmlAttrs k d = .ok d' := by
      have box : ∀ (k : Kind) (c : Str), k ≠ .body → boxClasses k = some c → (∀ t, d.get? "class".toList ≠ some (.pos t)) →
          ∃ d', htmlAttrs k d = .ok d' := by
        intro k c hb hc hv
        cases k <;> simp only [boxClasses, reduceCtorEq] at hc
        all_goals
          simp only [htmlAttrs, boxClasses]
          cases hg : d.get? "class".toList with
          | none => exact ⟨_, rfl⟩
          | some v => cases v with
            | str v => exact ⟨_, rfl⟩
            | pos t => exact absurd hg (hv t)
      unfold ClassFine at f3
      cases k with
      | featurebox => exact box _ _ (by decide) rfl (by simpa using f3)
      | examplebox => exact box _ _ (by decide) rfl (by simpa using f3)
      | problembox => exact box _ _ (by decide) rfl (by simpa using f3)
      | _ => exact ⟨_, rfl⟩
    obtain ⟨d', hd⟩ := hd
    obtain ⟨cls, hc, hw⟩ := htmlAttrs_ok k d d' hd
    refine ⟨d', hd, element_exists _ _ _ kids hk ?_ ?_⟩
    · intro r hr
      rw [hw r, if_neg (required_ne_class _ _ hr)]
      exact f1 r hr
    · intro a ha t
      rw [hw a]
      by_cases hne : a = "class".toList
      · subst hne
        rw [if_pos rfl]
        generalize hg : d.get? "class".toList = g at hc
        cases hc with
        | replaced _ c h => simp
        | alone c h => simp
        | after g c h => simp
        | figure _ c sp h => simp
        | same _ h1 h2 =>
          rcases f3 with hk3 | hk3 | hk3
          · exfalso
            simp only [List.mem_cons, List.not_mem_nil, or_false] at hk3
            rcases hk3 with rfl | rfl | rfl | rfl
            · exact h1 "body" false (by decide)
            · exact h2 "marginfig" (by decide)
            · exact h2 "figure" (by decide)
            · exact h2 "fullfigure" (by decide)
          · rw [← hg]; exact hk3 t
          · exact absurd ha hk3.2
      · rw [if_neg hne]
        exact f2 a ha hne t

theorem rawParts_ok (l : List Node) (kids : List Html) (h : toKids (cleanParts (rawParts l)) = .ok kids) : ∀ n ∈ l, IsStr n := by
  induction l generalizing kids with
  | nil => simp
  | cons n l ih =>
    cases n with
    | str s =>
      have hc : cleanParts (rawParts (.str s :: l)) = cleanParts [.text s] ++ cleanParts (rawParts l) := by
        rw [← cleanParts_append]; rfl
      rw [hc] at h
      obtain ⟨x, y, hx, hy, rfl⟩ := toKids_append _ _ _ h
      intro n hn
      rcases List.mem_cons.1 hn with rfl | hn
      · exact ⟨s, rfl⟩
      · exact ih y hy n hn
    | tag k nm d c => simp [rawParts, cleanParts, toKids] at h
    | list l' => simp [rawParts, cleanParts, toKids] at h
    | eq => simp [rawParts, cleanParts, toKids] at h
    | other => simp [rawParts, cleanParts, toKids] at h

theorem strs_flat (ks : List Kind) (l : List Node) (h : ∀ n ∈ l, IsStr n) : FlatAll ks none l := by
  induction l with
  | nil => simp [FlatAll]
  | cons n l ih =>
    obtain ⟨s, rfl⟩ := h n (by simp)
    simp only [FlatAll, Flat, true_and]
    exact ih fun n hn => h n (by simp [hn])

theorem strs_fine (lower : Str → Str) (l : List Node) (h : ∀ n ∈ l, IsStr n) : AttrsFineAll lower l := by
  induction l with
  | nil => simp [AttrsFineAll]
  | cons n l ih =>
    obtain ⟨s, rfl⟩ := h n (by simp)
    simp only [AttrsFineAll, AttrsFine, true_and]
    exact ih fun n hn => h n (by simp [hn])

theorem htmlFmt_list (sp : Char → Bool) (lower : Str → Str) (l : List Node) (h : ¬ ∃ l', l = [.list l']) :
    htmlFmt sp lower (.list l) = htmlItems sp lower l := by
  unfold htmlFmt
  split
  · rename_i heq; simp at heq
  · rename_i l' heq
    simp at heq
    exact absurd ⟨l', heq⟩ h
  · rename_i heq; simp at heq; rw [heq]
  · rename_i heq; simp at heq
  · rename_i heq; simp at heq
  · rename_i heq; simp at heq

mutual
/-- A tree that is shown is flat and has its attributes. -/
theorem ok_fine (sp : Char → Bool) (lower : Str → Str) : ∀ (n : Node) (parts : List (Part (Option Html))) (kids : List Html),
    htmlFmt sp lower n = .ok parts → toKids (cleanParts parts) = .ok kids → Flat htmlLeaves none n ∧ AttrsFine lower n
  | .str s, parts, kids, h, hk => by simp [Flat, AttrsFine]
  | .tag k nm d c, parts, kids, h, hk => by
    simp only [htmlFmt] at h
    by_cases hs : k = .supsub
    · subst hs
      simp only [htmlLeaf] at h
      cases c with
      | str s =>
        simp only at h
        cases hp : supsubParts sp s with
        | none => rw [hp] at h; simp [Except.map] at h
        | some ab =>
          obtain ⟨a', b'⟩ := ab
          obtain ⟨a, b, hh, -, -⟩ := (supsubParts_eq sp s).1 a' b' hp
          rw [hp] at h
          simp only [br_ok, Except.bind] at h
          have he : ∃ h, element "span".toList (d.set "class".toList (.str "supsub".toList))
              [.text a', .elem (some (.elem "br".toList [] [])), .text b'] = .ok h := by
            generalize element "span".toList (d.set "class".toList (.str "supsub".toList))
              [.text a', .elem (some (.elem "br".toList [] [])), .text b'] = r at h
            cases r with
            | error e => simp [Except.map] at h
            | ok x => exact ⟨x, rfl⟩
          obtain ⟨x, hx⟩ := he
          obtain ⟨_, _, ks, _, hks, _, _⟩ := element_ok _ _ _ _ hx
          refine ⟨?_, ?_⟩
          · simp only [Flat]
            exact ⟨fun _ => ⟨s, a, b, rfl, hh⟩, fun _ => ⟨s, rfl⟩, trivial⟩
          · simp only [AttrsFine]
            exact ⟨fun _ => (supsub_fine d _ ks hks).1 ⟨x, hx⟩, fun h => absurd rfl h, trivial⟩
      | tag => simp [Except.map] at h
      | list => simp [Except.map] at h
      | eq => simp [Except.map] at h
      | other => simp [Except.map] at h
    · by_cases hy : k = .symbol
      · subst hy
        simp only [htmlLeaf] at h
        cases c with
        | str s =>
          refine ⟨?_, ?_⟩
          · simp only [Flat]
            exact ⟨fun h => by simp at h, fun _ => ⟨s, rfl⟩, trivial⟩
          · simp only [AttrsFine]
            exact ⟨fun h => by simp at h, fun _ h => absurd rfl h, trivial⟩
        | tag => simp [Except.map] at h
        | list => simp [Except.map] at h
        | eq => simp [Except.map] at h
        | other => simp [Except.map] at h
      · rw [htmlLeaf_none sp k d c hs hy] at h
        simp only at h
        cases ha : htmlAttrs k d with
        | error e => rw [ha] at h; simp at h
        | ok d' =>
          rw [ha] at h
          simp only at h
          cases hc : htmlFmt sp lower c with
          | error e => rw [hc] at h; simp at h
          | ok ps =>
            rw [hc] at h
            simp only at h
            cases he : element (htmlName lower k nm) d' ps with
            | error e => rw [he] at h; simp [Except.map] at h
            | ok x =>
              obtain ⟨_, _, ks, _, hks, _, _⟩ := element_ok _ _ _ _ he
              obtain ⟨hf, hat⟩ := ok_fine sp lower c ps ks hc hks
              refine ⟨?_, ?_⟩
              · simp only [Flat]
                refine ⟨fun h => absurd h hs, fun h => ?_, hf⟩
                simp at h
                rcases h with h | h
                · exact absurd h hs
                · exact absurd h hy
              · simp only [AttrsFine]
                refine ⟨fun h => absurd h hs, fun _ _ name hn => ?_, hat⟩
                rw [elementOf_eq lower k nm name hn]
                exact (attrs_fine lower k nm d ps ks hks).1 ⟨d', ha, x, he⟩
  | .eq b nm d col c html, parts, kids, h, hk => by
    simp only [htmlFmt] at h
    cases html with
    | error e => simp [Except.map] at h
    | ok x => simp [Flat, AttrsFine]
  | .other ts tx html, parts, kids, h, hk => by
    simp only [htmlFmt] at h
    cases html with
    | error e => simp [Except.map] at h
    | ok x => simp [Flat, AttrsFine]
  | .list l, parts, kids, h, hk => by
    by_cases hsing : ∃ l', l = [.list l']
    · obtain ⟨l', rfl⟩ := hsing
      simp only [htmlFmt, Except.ok.injEq] at h
      subst h
      have hs := rawParts_ok l' kids hk
      refine ⟨?_, ?_⟩
      · simp only [Flat, FlatAll, and_true]
        refine ⟨Or.inr ⟨l', rfl, hs⟩, Or.inl fun n hn => ?_, strs_flat _ l' hs⟩
        obtain ⟨s, rfl⟩ := hs n hn
        rintro ⟨l, h⟩
        simp at h
      · simp only [AttrsFine, AttrsFineAll, and_true]
        exact strs_fine lower l' hs
    · rw [htmlFmt_list sp lower l hsing] at h
      obtain ⟨h1, h2, h3⟩ := ok_fine_items sp lower l parts kids h hk
      refine ⟨?_, ?_⟩
      · simp only [Flat]; exact ⟨Or.inl h3, h1⟩
      · simp only [AttrsFine]; exact h2
theorem ok_fine_items (sp : Char → Bool) (lower : Str → Str) : ∀ (l : List Node) (parts : List (Part (Option Html))) (kids : List Html),
    htmlItems sp lower l = .ok parts → toKids (cleanParts parts) = .ok kids →
      FlatAll htmlLeaves none l ∧ AttrsFineAll lower l ∧ ∀ n ∈ l, ¬ IsList n
  | [], parts, kids, h, hk => by simp [FlatAll, AttrsFineAll]
  | .str s :: l, parts, kids, h, hk => by
    simp only [htmlItems] at h
    cases hr : htmlItems sp lower l with
    | error e => rw [hr] at h; simp [Except.map] at h
    | ok r =>
      rw [hr] at h
      simp only [Except.map, Except.ok.injEq] at h
      subst h
      have hc : cleanParts (.text s :: r) = cleanParts [.text s] ++ cleanParts r := by
        rw [← cleanParts_append]; rfl
      rw [hc] at hk
      obtain ⟨x, y, hx, hy, rfl⟩ := toKids_append _ _ _ hk
      obtain ⟨h1, h2, h3⟩ := ok_fine_items sp lower l r y hr hy
      refine ⟨by simp only [FlatAll, Flat, true_and]; exact h1, by simp only [AttrsFineAll, AttrsFine, true_and]; exact h2, ?_⟩
      intro n hn
      rcases List.mem_cons.1 hn with rfl | hn
      · rintro ⟨l, h⟩; simp at h
      · exact h3 n hn
  | .list l' :: l, parts, kids, h, hk => by
    simp only [htmlItems] at h
    cases hr : htmlItems sp lower l with
    | error e => rw [hr] at h; simp [Except.map] at h
    | ok r =>
      rw [hr] at h
      simp only [Except.map, Except.ok.injEq] at h
      subst h
      simp [cleanParts, toKids] at hk
  | .tag k nm d c :: l, parts, kids, h, hk => by
    simp only [htmlItems] at h
    cases ht : htmlFmt sp lower (.tag k nm d c) with
    | error e => rw [ht] at h; simp at h
    | ok ps =>
      rw [ht] at h
      simp only at h
      cases hr : htmlItems sp lower l with
      | error e => rw [hr] at h; simp [Except.map] at h
      | ok r =>
        rw [hr] at h
        simp only [Except.map, Except.ok.injEq] at h
        subst h
        rw [cleanParts_append] at hk
        obtain ⟨x, y, hx, hy, rfl⟩ := toKids_append _ _ _ hk
        obtain ⟨g1, g2⟩ := ok_fine sp lower (.tag k nm d c) ps x ht hx
        obtain ⟨h1, h2, h3⟩ := ok_fine_items sp lower l r y hr hy
        refine ⟨by rw [FlatAll]; exact ⟨g1, h1⟩, by rw [AttrsFineAll]; exact ⟨g2, h2⟩, ?_⟩
        intro n hn
        rcases List.mem_cons.1 hn with rfl | hn
        · rintro ⟨l, h⟩; simp at h
        · exact h3 n hn
  | .eq b nm d col c html :: l, parts, kids, h, hk => by
    simp only [htmlItems] at h
    cases ht : htmlFmt sp lower (.eq b nm d col c html) with
    | error e => rw [ht] at h; simp at h
    | ok ps =>
      rw [ht] at h
      simp only at h
      cases hr : htmlItems sp lower l with
      | error e => rw [hr] at h; simp [Except.map] at h
      | ok r =>
        rw [hr] at h
        simp only [Except.map, Except.ok.injEq] at h
        subst h
        rw [cleanParts_append] at hk
        obtain ⟨x, y, hx, hy, rfl⟩ := toKids_append _ _ _ hk
        obtain ⟨g1, g2⟩ := ok_fine sp lower (.eq b nm d col c html) ps x ht hx
        obtain ⟨h1, h2, h3⟩ := ok_fine_items sp lower l r y hr hy
        refine ⟨by rw [FlatAll]; exact ⟨g1, h1⟩, by rw [AttrsFineAll]; exact ⟨g2, h2⟩, ?_⟩
        intro n hn
        rcases List.mem_cons.1 hn with rfl | hn
        · rintro ⟨l, h⟩; simp at h
        · exact h3 n hn
  | .other ts tx html :: l, parts, kids, h, hk => by
    simp only [htmlItems] at h
    cases ht : htmlFmt sp lower (.other ts tx html) with
    | error e => rw [ht] at h; simp at h
    | ok ps =>
      rw [ht] at h
      simp only at h
      cases hr : htmlItems sp lower l with
      | error e => rw [hr] at h; simp [Except.map] at h
      | ok r =>
        rw [hr] at h
        simp only [Except.map, Except.ok.injEq] at h
        subst h
        rw [cleanParts_append] at hk
        obtain ⟨x, y, hx, hy, rfl⟩ := toKids_append _ _ _ hk
        obtain ⟨g1, g2⟩ := ok_fine sp lower (.other ts tx html) ps x ht hx
        obtain ⟨h1, h2, h3⟩ := ok_fine_items sp lower l r y hr hy
        refine ⟨by rw [FlatAll]; exact ⟨g1, h1⟩, by rw [AttrsFineAll]; exact ⟨g2, h2⟩, ?_⟩
        intro n hn
        rcases List.mem_cons.1 hn with rfl | hn
        · rintro ⟨l, h⟩; simp at h
        · exact h3 n hn
end

mutual
/-- A flat tree with its attributes is shown. -/
theorem fine_ok (sp : Char → Bool) (lower : Str → Str) : ∀ (n : Node), Flat htmlLeaves none n → AttrsFine lower n →
    ∃ parts kids, htmlFmt sp lower n = .ok parts ∧ toKids (cleanParts parts) = .ok kids
  | .str s, hf, ha => ⟨_, _, by simp only [htmlFmt], toKids_text s⟩
  | .tag k nm d c, hf, hat => by
    simp only [Flat] at hf
    simp only [AttrsFine] at hat
    obtain ⟨f1, f2, f3⟩ := hf
    obtain ⟨a1, a2, a3⟩ := hat
    simp only [htmlFmt]
    by_cases hs : k = .supsub
    · subst hs
      obtain ⟨s, a, b, rfl, hh⟩ := f1 rfl
      simp only [htmlLeaf]
      cases hp : supsubParts sp s with
      | none => exact absurd hh ((supsubParts_eq sp s).2 hp a b)
      | some ab =>
        obtain ⟨a', b'⟩ := ab
        simp only [br_ok, Except.bind]
        have hc : toKids (cleanParts [Part.text a', .elem (some (Html.elem "br".toList [] [])), .text b']) =
            .ok ((textNodes a' ++ [.elem "br".toList [] []]) ++ textNodes b') := by
          have : cleanParts [Part.text a', .elem (some (Html.elem "br".toList [] [])), .text b'] =
              (cleanParts [Part.text a'] ++ cleanParts [.elem (some (Html.elem "br".toList [] []))]) ++ cleanParts [.text b'] := by
            rw [← cleanParts_append, ← cleanParts_append]; rfl
          rw [this, toKids_append_ok _ _ _ _ (toKids_append_ok _ _ _ _ (toKids_text a') (toKids_elem _)) (toKids_text b')]
        obtain ⟨x, hx⟩ := (supsub_fine d _ _ hc).2 (a1 rfl)
        rw [hx]
        exact ⟨_, _, rfl, toKids_elem x⟩
    · by_cases hy : k = .symbol
      · subst hy
        obtain ⟨s, rfl⟩ := f2 (by simp)
        exact ⟨_, _, rfl, toKids_elem _⟩
      · rw [htmlLeaf_none sp k d c hs hy]
        simp only
        obtain ⟨ps, ks, hc, hks⟩ := fine_ok sp lower c f3 a3
        obtain ⟨d', hd, x, hx⟩ := (attrs_fine lower k nm d ps ks hks).2 (a2 hs hy _ (htmlName_ok lower k nm hs hy))
        rw [hd, hc]
        simp only
        rw [hx]
        exact ⟨_, _, rfl, toKids_elem x⟩
  | .eq b nm d col c html, hf, ha => by
    simp only [Flat] at hf
    obtain ⟨x, rfl⟩ := hf.2 trivial
    exact ⟨_, _, by simp only [htmlFmt, Except.map], toKids_elem x⟩
  | .other ts tx html, hf, ha => by
    simp only [Flat] at hf
    obtain ⟨x, rfl⟩ := hf.2 trivial
    exact ⟨_, _, by simp only [htmlFmt, Except.map], toKids_elem x⟩
  | .list l, hf, ha => by
    simp only [Flat] at hf
    simp only [AttrsFine] at ha
    by_cases hsing : ∃ l', l = [.list l']
    · obtain ⟨l', rfl⟩ := hsing
      simp only [htmlFmt]
      have hs : ∀ n ∈ l', IsStr n := by
        rcases hf.1 with h | ⟨l'', h, hs⟩
        · exact absurd ⟨l', rfl⟩ (h (.list l') (by simp))
        · simp only [List.cons.injEq, Node.list.injEq, and_true] at h
          subst h
          exact hs
      obtain ⟨kids, hk⟩ := (rawParts_shown sp lower l').2 hs
      exact ⟨_, kids, rfl, hk⟩
    · rw [htmlFmt_list sp lower l hsing]
      apply fine_ok_items sp lower l hf.2 ha
      rcases hf.1 with h | ⟨l'', h, hs⟩
      · exact h
      · exact absurd ⟨l'', h⟩ hsing
theorem fine_ok_items (sp : Char → Bool) (lower : Str → Str) : ∀ (l : List Node), FlatAll htmlLeaves none l → AttrsFineAll lower l →
    (∀ n ∈ l, ¬ IsList n) → ∃ parts kids, htmlItems sp lower l = .ok parts ∧ toKids (cleanParts parts) = .ok kids
  | [], hf, ha, hl => ⟨[], [], by simp only [htmlItems], rfl⟩
  | .str s :: l, hf, ha, hl => by
    simp only [FlatAll, AttrsFineAll] at hf ha
    obtain ⟨ps, ks, h1, h2⟩ := fine_ok_items sp lower l hf.2 ha.2 fun n hn => hl n (by simp [hn])
    refine ⟨.text s :: ps, textNodes s ++ ks, by simp only [htmlItems]; rw [h1]; rfl, ?_⟩
    have hc : cleanParts (.text s :: ps) = cleanParts [.text s] ++ cleanParts ps := by
      rw [← cleanParts_append]; rfl
    rw [hc]
    exact toKids_append_ok _ _ _ _ (toKids_text s) h2
  | .list l' :: l, hf, ha, hl => absurd ⟨l', rfl⟩ (hl (.list l') (by simp))
  | .tag k nm d c :: l, hf, ha, hl => by
    rw [FlatAll] at hf
    rw [AttrsFineAll] at ha
    obtain ⟨ps, ks, h1, h2⟩ := fine_ok_items sp lower l hf.2 ha.2 fun n hn => hl n (by simp [hn])
    obtain ⟨qs, js, g1, g2⟩ := fine_ok sp lower (.tag k nm d c) hf.1 ha.1
    refine ⟨qs ++ ps, js ++ ks, by simp only [htmlItems]; rw [g1, h1]; rfl, ?_⟩
    rw [cleanParts_append]
    exact toKids_append_ok _ _ _ _ g2 h2
  | .eq b nm d col c html :: l, hf, ha, hl => by
    rw [FlatAll] at hf
    rw [AttrsFineAll] at ha
    obtain ⟨ps, ks, h1, h2⟩ := fine_ok_items sp lower l hf.2 ha.2 fun n hn => hl n (by simp [hn])
    obtain ⟨qs, js, g1, g2⟩ := fine_ok sp lower (.eq b nm d col c html) hf.1 ha.1
    refine ⟨qs ++ ps, js ++ ks, by simp only [htmlItems]; rw [g1, h1]; rfl, ?_⟩
    rw [cleanParts_append]
    exact toKids_append_ok _ _ _ _ g2 h2
  | .other ts tx html :: l, hf, ha, hl => by
    rw [FlatAll] at hf
    rw [AttrsFineAll] at ha
    obtain ⟨ps, ks, h1, h2⟩ := fine_ok_items sp lower l hf.2 ha.2 fun n hn => hl n (by simp [hn])
    obtain ⟨qs, js, g1, g2⟩ := fine_ok sp lower (.other ts tx html) hf.1 ha.1
    refine ⟨qs ++ ps, js ++ ks, by simp only [htmlItems]; rw [g1, h1]; rfl, ?_⟩
    rw [cleanParts_append]
    exact toKids_append_ok _ _ _ _ g2 h2
end

/-! ### Texts and names -/

theorem htmlTextsAll_append (a b : List Html) : htmlTextsAll (a ++ b) = htmlTextsAll a ++ htmlTextsAll b := by
  induction a with
  | nil => simp [htmlTextsAll]
  | cons h a ih => simp [htmlTextsAll, ih]

theorem allAllowedAll_append (a b : List Html) : AllAllowedAll (a ++ b) ↔ AllAllowedAll a ∧ AllAllowedAll b := by
  induction a with
  | nil => simp [AllAllowedAll]
  | cons h a ih => simp only [List.cons_append, AllAllowedAll, ih, and_assoc]

theorem textNodes_texts (s : Str) : (htmlTextsAll (textNodes s)).filter (· ≠ []) = [s].filter (· ≠ []) := by
  unfold textNodes
  split
  · rename_i h; subst h; simp [htmlTextsAll]
  · simp [htmlTextsAll, htmlTexts]

theorem textNodes_allowed (s : Str) : AllAllowedAll (textNodes s) := by
  unfold textNodes
  split <;> simp [AllAllowedAll, AllAllowed]

/-- The texts that are shown are those of the tree. -/
theorem shown_texts (sp : Char → Bool) (lower : Str → Str) (n : Node) (kids : List Html) (hs : Sound n)
    (h : Shown sp lower n kids) (ts : List Str) (ht : HasTexts sp false n ts) : (htmlTextsAll kids).filter (· ≠ []) = ts.filter (· ≠ []) := by
  induction h generalizing ts with
  | str s => cases ht; exact textNodes_texts s
  | nil => cases ht; rfl
  | cons n l x y hx hy ihx ihy =>
    cases ht with
    | cons _ _ ts us h1 h2 =>
      simp only [Sound, SoundAll] at hs
      rw [htmlTextsAll_append, List.filter_append, List.filter_append, ihx hs.1 _ h1, ihy (by simp only [Sound]; exact hs.2) _ h2]
  | tag k n d c kids name e d' cls attrs h1 h2 hsh he hal hc hw hat ih =>
    simp only [Sound] at hs
    simp only [htmlTextsAll, htmlTexts, List.append_nil]
    cases ht with
    | supsub => exact absurd rfl h1
    | symbol => exact absurd rfl h2
    | verb => exact ih hs _ (.str _)
    | tag _ _ _ _ ts _ ht => exact ih hs _ ht
  | supsub n d s a b a' b' d' attrs hh ha hb hw hat =>
    have := texts_unique sp false _ _ _ ht (.supsub n d s a b a' b' hh ha hb)
    subst this
    have e : ([a', b'] : List Str) = [a'] ++ [b'] := rfl
    simp only [htmlTextsAll, htmlTexts, List.append_nil]
    rw [htmlTextsAll_append, htmlTextsAll_append, List.filter_append, List.filter_append, textNodes_texts, textNodes_texts, e,
      List.filter_append]
    simp [htmlTextsAll, htmlTexts]
  | symbol n d s s' h =>
    have := texts_unique sp false _ _ _ ht (.symbol n d s s' h)
    subst this
    simp [htmlTextsAll, htmlTexts]
  | eq b n d col c h =>
    simp only [Sound] at hs
    cases ht with
    | eq _ _ _ _ _ _ _ _ hf => simp at hf
    | image => simp [htmlTextsAll, (hs h rfl).1]
  | other ts tx h =>
    simp only [Sound] at hs
    cases ht with
    | other => simp only [htmlTextsAll, List.append_nil]; exact (hs h rfl).1

theorem allowedAttrs_span (name : Str) (h : ¬ (name ∈ xhtmlArguments.keys ∨ name ∈ xhtmlOptionals.keys)) :
    allowedAttrs xhtmlArguments xhtmlOptionals name = allowedAttrs xhtmlArguments xhtmlOptionals "span".toList := by
  have : allowedAttrs xhtmlArguments xhtmlOptionals "span".toList = namesOf xhtmlOptionals "span".toList := by decide
  rw [this]
  unfold allowedAttrs
  rw [if_neg h]

theorem attrsOf_allowed (name e : Str) (d : ADict) (attrs : Dict Str Str) (hal : Allowed name e) (hat : AttrsOf name d attrs) :
    (e ∈ xhtmlArguments.keys ∨ e ∈ xhtmlOptionals.keys) ∧
    ∀ k v, attrs.get? k = some v → k ∈ allowedAttrs xhtmlArguments xhtmlOptionals e := by
  rcases hal with ⟨hn, rfl⟩ | ⟨hn, rfl⟩
  · refine ⟨hn, fun k v hv => ?_⟩
    rcases (hat k v).1 hv with ⟨h, _⟩ | ⟨h, _⟩
    · exact h
    · exact absurd hn h
  · refine ⟨by decide, fun k v hv => ?_⟩
    rw [← allowedAttrs_span name hn]
    rcases (hat k v).1 hv with ⟨h, _⟩ | ⟨_, rfl, _⟩
    · exact h
    · exact class_allowed name hn

/-- Only allowed elements and attributes are shown. -/
theorem shown_allowed (sp : Char → Bool) (lower : Str → Str) (n : Node) (kids : List Html) (hs : Sound n)
    (h : Shown sp lower n kids) : AllAllowedAll kids := by
  induction h with
  | str s => exact textNodes_allowed s
  | nil => simp [AllAllowedAll]
  | cons n l x y hx hy ihx ihy => 
    simp only [Sound, SoundAll] at hs
    exact (allAllowedAll_append x y).2 ⟨ihx hs.1, ihy (by simp only [Sound]; exact hs.2)⟩
  | tag k n d c kids name e d' cls attrs h1 h2 hsh he hal hc hw hat ih =>
    simp only [Sound] at hs
    simp only [AllAllowedAll, AllAllowed, and_true]
    obtain ⟨a, b⟩ := attrsOf_allowed name e d' attrs hal hat
    exact ⟨a, b, ih hs⟩
  | supsub n d s a b a' b' d' attrs hh ha hb hw hat =>
    simp only [AllAllowedAll, AllAllowed, and_true]
    obtain ⟨p, q⟩ := attrsOf_allowed "span".toList "span".toList d' attrs (Or.inl ⟨by decide, rfl⟩) hat
    refine ⟨p, q, ?_⟩
    rw [allAllowedAll_append, allAllowedAll_append]
    refine ⟨⟨textNodes_allowed _, ?_⟩, textNodes_allowed _⟩
    simp only [AllAllowedAll, AllAllowed, and_true]
    exact ⟨by decide, by simp⟩
  | symbol n d s s' h => simp [AllAllowedAll, AllAllowed]
  | eq b n d col c h =>
    simp only [Sound] at hs
    simp only [AllAllowedAll, and_true]
    exact (hs h rfl).2
  | other ts tx h =>
    simp only [Sound] at hs
    simp only [AllAllowedAll, and_true]
    exact (hs h rfl).2

end Verif.Render
