import Verif.Lemmas.PageShown

/-!
# C65: What is written in a document is what is shown

From the text of the body of a document to its html and its LaTeX, through the tags, the typography and the paragraphs.
`Reads` says what a text says. The theorems hold for every choice of the classes `\w` and `\s` with `Classes`, and every
`str.lower` that leaves the names `p` and `body` as they are.
-/

namespace Verif.Page

open Verif Verif.Typography Verif.Parser.Spec Verif.Page.Spec Verif.Render Verif.Render.Spec

/-- What is known of the names of the tags. -/
structure Lower (lower : Str → Str) : Prop where
  p : lower "p".toList = "p".toList
  body : lower "body".toList = "body".toList

variable {ch : Chars}

/-- The node of the body. -/
theorem reads_node {Q} (hc : Classes ch.sp ch.word) (hl : Lower ch.lower) (hQ : ∀ n, Q n []) {s ls}
    (h : Reads ch.word ch.sp ch.lower s ls)
    (hq : ∀ l ∈ ls, ∀ n, l.1.getLast? = some n → verbatim ch.lower n = true → Q n l.2) :
    ∃ c d, page ch s = .ok (.tag .body "body".toList d (toNode ch c)) ∧ Good ch Q c ∧
      ∀ (α : Type) (g : List Str → Str → List α), Additive ch.sp g → ∀ path,
        vm ch.lower g path c = ls.flatMap (leafVal ch g path) := by
  obtain ⟨c, h1, h2, h3⟩ := reads_body hc hl.p hl.body hQ h hq
  refine ⟨c, Attrs.load Attrs.trackedTargets ch.posType ch.word ch.sp [], ?_, h2, h3⟩
  unfold page
  rw [h1]
  show Except.ok _ = _
  rw [toNode]
  have hk : kindOf ch.lower "body".toList = some .body := by unfold kindOf; rw [hl.body]; rfl
  rw [hk]
  rfl

/-- **C65**. A text that says something makes a document, and there is LaTeX for it. -/
theorem C65_page (hc : Classes ch.sp ch.word) (hl : Lower ch.lower) (s : Str) (ls) (h : Reads ch.word ch.sp ch.lower s ls) :
    ∃ n out, page ch s = .ok n ∧ texFmt ch.sp false n = .ok out := by
  obtain ⟨c, d, h1, h2, _⟩ := reads_node (Q := fun _ _ => True) hc hl (fun _ => trivial) h (fun _ _ _ _ _ => trivial)
  have hf : Flat leaves (some false) (.tag .body "body".toList d (toNode ch c)) := by
    rw [Flat]
    exact ⟨by simp, fun h => absurd h (by decide), flat_good _ (fun _ h => h) _ c h2⟩
  obtain ⟨out, ho⟩ := flat_ok ch.sp false _ hf
  exact ⟨_, out, h1, ho⟩

/-- **C65**. There is html for it exactly if its tags have the attributes that are required. -/
theorem C65_html_exists (hc : Classes ch.sp ch.word) (hl : Lower ch.lower) (s : Str) (ls)
    (h : Reads ch.word ch.sp ch.lower s ls) (n : Node) (hn : page ch s = .ok n) :
    (∃ parts kids, htmlFmt ch.sp ch.lower n = .ok parts ∧ toKids (Formats.cleanParts parts) = .ok kids) ↔ AttrsFine ch.lower n := by
  obtain ⟨c, d, h1, h2, _⟩ := reads_node (Q := fun _ _ => True) hc hl (fun _ => trivial) h (fun _ _ _ _ _ => trivial)
  rw [h1] at hn
  cases hn
  rw [C53_renders]
  constructor
  · exact fun h => h.2
  · intro h
    refine ⟨?_, h⟩
    rw [Flat]
    exact ⟨by simp, fun h => absurd h (by decide), flat_good _ (by decide) _ c h2⟩

/-- What is marked in the html, for any text. -/
theorem html_marks (hc : Classes ch.sp ch.word) (hl : Lower ch.lower) (s : Str) (ls)
    (h : Reads ch.word ch.sp ch.lower s ls) (n : Node) (hn : page ch s = .ok n) (parts) (kids : List Html)
    (hp : htmlFmt ch.sp ch.lower n = .ok parts) (hk : toKids (Formats.cleanParts parts) = .ok kids) :
    (marksAll [] kids).filter (fun x => !ch.sp x.2) =
      placed ch.lower (fun c => !ch.sp c) (typeset ch.lower (typo ch.sp ch.word) ls) := by
  obtain ⟨c, d, h1, h2, h3⟩ := reads_node (Q := fun _ _ => True) hc hl (fun _ => trivial) h (fun _ _ _ _ _ => trivial)
  rw [h1] at hn
  cases hn
  have hs := C53_shown ch.sp ch.lower _ parts kids hp hk
  generalize hcn : toNode ch c = cn at hs
  cases hs with
  | tag _ _ _ _ kids' name e d' cls attrs _ _ hsh he ha _ _ _ =>
    subst hcn
    have hel : around ch.lower ["body".toList] = ["div".toList] := by
      unfold around elementOf
      rw [List.flatMap_cons, hl.body, List.flatMap_nil]
      decide
    have hdiv : e = "div".toList := by
      have hname : name = "div".toList := by
        rcases he with ⟨s, he, rfl⟩ | ⟨he, _⟩
        · have : ∀ x ∈ Render.Spec.elements, x.1 = .body → x.2.toList = "div".toList := by decide
          exact this _ he rfl
        · exact absurd he (by decide)
      subst hname
      rcases ha with ⟨_, rfl⟩ | ⟨h, _⟩
      · rfl
      · exact absurd (by decide) h
    subst hdiv
    have hm := shown_marks ["body".toList] c kids' h2 hsh
    rw [marksAll, marks, marksAll, List.append_nil, if_neg (by decide), List.nil_append, ← hel]
    refine hm.trans ?_
    rw [h3 _ _ gm_additive, placed, typeset, List.flatMap_map]
    congr 1
    funext l
    unfold leafVal gm
    have har : around ch.lower (["body".toList] ++ l.1.filter fun n => ch.lower n ≠ "p".toList) =
        around ch.lower ("body".toList :: l.1) := by
      unfold around
      rw [List.singleton_append, List.flatMap_cons, List.flatMap_cons]
      congr 1
      induction l.1 with
      | nil => rfl
      | cons n ns ih =>
        rw [List.filter_cons, List.flatMap_cons]
        by_cases hp : ch.lower n = "p".toList
        · have : elementOf ch.lower n = [] := by unfold elementOf; rw [if_pos (by rw [hp]; simp)]
          rw [this, List.nil_append, if_neg (by simpa using hp), ih]
        · rw [if_pos (by simpa using hp), List.flatMap_cons, ih]
    rw [har]

/-- **C65**. What is written is what is shown in html: the characters of the html that are not spaces, each with the
elements around it, are those of the texts of the document in their order, in the elements of the tags around them. Texts
are typeset (C45), apart from those of verbatim tags. Nothing is lost, nothing is shown twice, nothing is added, and
nothing is in an element that it is not written in. -/
theorem C65_html (hc : Classes ch.sp ch.word) (hl : Lower ch.lower) (s : Str) (ls)
    (h : Reads ch.word ch.sp ch.lower s ls) (n : Node) (hn : page ch s = .ok n) (parts) (kids : List Html)
    (hp : htmlFmt ch.sp ch.lower n = .ok parts) (hk : toKids (Formats.cleanParts parts) = .ok kids) :
    (marksAll [] kids).filter (fun x => !ch.sp x.2) =
      placed ch.lower (fun c => !ch.sp c) (typeset ch.lower (typo ch.sp ch.word) ls) :=
  html_marks hc hl s ls h n hn parts kids hp hk

theorem touched_sp {sp : Char → Bool} (c : Char) (h : touched sp c = false) : sp c = false := by
  unfold touched at h
  rw [Bool.or_eq_false_iff] at h
  exact h.1

theorem placed_words (hc : Classes ch.sp ch.word) (ls : List (List Str × Str)) :
    (placed ch.lower (fun c => !ch.sp c) (typeset ch.lower (typo ch.sp ch.word) ls)).filter (fun x => !touched ch.sp x.2) =
      placed ch.lower (fun c => !touched ch.sp c) ls := by
  have hf : ∀ (p : List Str) (t : Str), ((t.filter fun c => !ch.sp c).map fun c => (p, c)).filter (fun x => !touched ch.sp x.2) =
      (t.filter fun c => !touched ch.sp c).map fun c => (p, c) := by
    intro p t
    induction t with
    | nil => rfl
    | cons c t ih =>
      rw [List.filter_cons (xs := t), List.filter_cons (xs := t)]
      cases ht : touched ch.sp c with
      | false => simp [touched_sp c ht, ht, ih]
      | true =>
        cases hs : ch.sp c with
        | false => simp [ht, ih]
        | true => simp [ih]
  unfold placed typeset
  induction ls with
  | nil => rfl
  | cons l ls ih =>
    rw [List.map_cons, List.flatMap_cons, List.flatMap_cons, List.filter_append, ih, hf]
    congr 1
    simp only
    split
    · rfl
    · rw [C45_only hc]

/-- **C65**, without the typography: the characters other than spaces, dashes and quotes that are shown in html are those
that are written, in the elements of the tags around them. -/
theorem C65_html_words (hc : Classes ch.sp ch.word) (hl : Lower ch.lower) (s : Str) (ls)
    (h : Reads ch.word ch.sp ch.lower s ls) (n : Node) (hn : page ch s = .ok n) (parts) (kids : List Html)
    (hp : htmlFmt ch.sp ch.lower n = .ok parts) (hk : toKids (Formats.cleanParts parts) = .ok kids) :
    (marksAll [] kids).filter (fun x => !touched ch.sp x.2) = placed ch.lower (fun c => !touched ch.sp c) ls := by
  rw [← placed_words hc, ← C65_html hc hl s ls h n hn parts kids hp hk, List.filter_filter]
  congr 1
  funext x
  cases ht : touched ch.sp x.2 with
  | false => simp [touched_sp _ ht]
  | true => simp

/-- **C65**. What is written is what is in the LaTeX: it has texts, whole and in order, whose characters that are not
spaces are those of the texts of the document, typeset as in html. Verbatim texts that LaTeX has no delimiter for are left
out. -/
theorem C65_tex (hc : Classes ch.sp ch.word) (hl : Lower ch.lower) (s : Str) (ls)
    (h : Reads ch.word ch.sp ch.lower s ls)
    (hv : ∀ l ∈ ls, ∀ n, l.1.getLast? = some n → verbatim ch.lower n = true → n ≠ "verbatim".toList →
      '|' ∉ l.2 ∨ '!' ∉ l.2 ∨ '^' ∉ l.2)
    (n : Node) (hn : page ch s = .ok n) (out : Str) (ho : texFmt ch.sp false n = .ok out) :
    ∃ us, InOrder us out ∧
      us.flatten.filter (fun c => !ch.sp c) = kept (fun c => !ch.sp c) (typeset ch.lower (typo ch.sp ch.word) ls) := by
  obtain ⟨c, d, h1, h2, h3⟩ := reads_node (Q := Delimited) hc hl (fun _ _ => .inl (by simp)) h hv
  rw [h1] at hn
  cases hn
  have hs : Sayable (.tag .body "body".toList d (toNode ch c)) := by
    rw [Sayable]
    exact ⟨by decide, by simp, sayable_good c h2⟩
  obtain ⟨us, hu, hio⟩ := C52_texts_partial ch.sp false _ out hs ho
  refine ⟨us, hio, ?_⟩
  generalize hcn : toNode ch c = cn at hu
  have hu' : HasTexts ch.sp true cn us := by
    cases hu with
    | tag _ _ _ _ _ _ hc => exact hc
  subst hcn
  refine (texts_words [] c us h2 hu').trans ?_
  rw [h3 _ _ gw_additive, kept, typeset, List.flatMap_map]
  rfl

/-- **C65**, without the typography. -/
theorem C65_tex_words (hc : Classes ch.sp ch.word) (hl : Lower ch.lower) (s : Str) (ls)
    (h : Reads ch.word ch.sp ch.lower s ls)
    (hv : ∀ l ∈ ls, ∀ n, l.1.getLast? = some n → verbatim ch.lower n = true → n ≠ "verbatim".toList →
      '|' ∉ l.2 ∨ '!' ∉ l.2 ∨ '^' ∉ l.2)
    (n : Node) (hn : page ch s = .ok n) (out : Str) (ho : texFmt ch.sp false n = .ok out) :
    ∃ us, InOrder us out ∧ us.flatten.filter (fun c => !touched ch.sp c) = kept (fun c => !touched ch.sp c) ls := by
  obtain ⟨us, h1, h2⟩ := C65_tex hc hl s ls h hv n hn out ho
  refine ⟨us, h1, ?_⟩
  have hf : ∀ t : Str, t.filter (fun c => !touched ch.sp c) = (t.filter fun c => !ch.sp c).filter fun c => !touched ch.sp c := by
    intro t
    rw [List.filter_filter]
    congr 1
    funext x
    cases ht : touched ch.sp x with
    | false => simp [touched_sp _ ht]
    | true => simp
  rw [hf, h2]
  unfold kept typeset
  clear h1 h2 h hv
  induction ls with
  | nil => rfl
  | cons l ls ih =>
    rw [List.map_cons, List.flatMap_cons, List.flatMap_cons, List.filter_append, ih, ← hf]
    congr 1
    simp only
    split
    · rfl
    · rw [C45_only hc]

/-! ### Examples -/

/-- ASCII. -/
def ascii : Chars :=
  { word := asciiWord, sp := asciiSp, lower := fun s => s.map Char.toLower, posType := fun _ => .string }

theorem ascii_classes : Classes ascii.sp ascii.word := ⟨by
  intro c h
  unfold ascii asciiSp at h
  simp only [Bool.or_eq_true, decide_eq_true_eq] at h
  rcases h with ((rfl | rfl) | rfl) | rfl <;> decide, by decide⟩

theorem ascii_lower : Lower ascii.lower := ⟨by decide, by decide⟩

instance (lower : Str → Str) (name : Str) : Decidable (Symbol lower name) := by unfold Symbol; infer_instance
instance (lower : Str → Str) (name : Str) : Decidable (Boxed lower name) := by unfold Boxed; infer_instance

/-- What a text says, if it says something (for examples). -/
def reader (ch : Chars) : Nat → Str → Option (List (List Str × Str))
  | 0, _ => none
  | fuel + 1, s =>
    match Parser.searchOpen ch.word s with
    | none => some [([], s)]
    | some m =>
      if m.opened then
        let w := Parser.braceLoop 1 m.rest
        let body := w.2.1.dropLast
        if w.1 = 0 ∧ ch.lower m.name ∉ special ∧
            (verbatim ch.lower m.name = true ∨ Symbol ch.lower m.name → Parser.searchOpen ch.word body = none) ∧
            (Boxed ch.lower m.name → body.any (!ch.sp ·) = true) then
          (reader ch fuel body).bind fun bs => (reader ch fuel w.2.2).map fun rs =>
            ([], m.pre) :: bs.map (fun l => (m.name :: l.1, l.2)) ++ rs
        else none
      else if ch.lower m.name ∉ special ∧ ¬ Boxed ch.lower m.name then
        (reader ch fuel m.rest).map fun rs => ([], m.pre) :: rs
      else none

theorem reader_reads (fuel : Nat) (s : Str) (ls) (h : reader ch fuel s = some ls) : Reads ch.word ch.sp ch.lower s ls := by
  induction fuel generalizing s ls with
  | zero => cases h
  | succ fuel ih =>
    rw [reader] at h
    cases hs : Parser.searchOpen ch.word s with
    | none =>
      rw [hs] at h
      cases h
      exact .text s ((Parser.searchOpen_none _ _).1 hs)
    | some m =>
      obtain ⟨e, hp, hh, ho⟩ := Parser.searchOpen_some _ _ _ hs
      rw [hs] at h
      simp only at h
      cases hop : m.opened with
      | true =>
        rw [hop, if_pos rfl] at h
        split at h
        · rename_i hcond
          obtain ⟨h0, h1, h2, h3⟩ := hcond
          obtain ⟨body, hw, hcl⟩ := Parser.closes_of_braceLoop m.rest (Parser.braceLoop 1 m.rest).2.1 (Parser.braceLoop 1 m.rest).2.2
            (by rw [← h0])
          rw [hw, List.dropLast_concat] at h h2 h3
          cases hb : reader ch fuel body with
          | none => rw [hb] at h; cases h
          | some bs =>
            cases hr : reader ch fuel (Parser.braceLoop 1 m.rest).2.2 with
            | none => rw [hb, hr] at h; cases h
            | some rs =>
              rw [hb, hr] at h
              cases h
              rw [hop] at e hh
              simp only [Parser.braceStr, if_true, List.cons_append, List.nil_append] at e hh
              rw [e]
              simp only [List.append_assoc, List.cons_append, List.nil_append] at *
              have := Reads.tag (word := ch.word) (sp := ch.sp) (lower := ch.lower) m.pre m.name m.attrs m.rest body _ bs rs hp hh hcl h1
                (fun hv => (Parser.searchOpen_none _ _).1 (h2 hv))
                (fun hb => by obtain ⟨c, hc, hc'⟩ := List.any_eq_true.1 (h3 hb); exact ⟨c, hc, by simpa using hc'⟩)
                (ih _ _ hb) (ih _ _ hr)
              simpa using this
        · cases h
      | false =>
        rw [hop, if_neg (by simp)] at h
        split at h
        · rename_i hcond
          cases hr : reader ch fuel m.rest with
          | none => rw [hr] at h; cases h
          | some rs =>
            rw [hr] at h
            cases h
            rw [hop] at e hh
            simp only [Parser.braceStr, Bool.false_eq_true, if_false, List.nil_append] at e hh
            rw [e]
            exact Reads.bare m.pre m.name m.attrs m.rest rs hp hh (ho hop) hcond.1 hcond.2 (ih _ _ hr)
        · cases h

/-- A text with tags in tags. -/
def exampleText : Str := "My @b{bold -- @i{and italic}} text\n\n@featurebox{A @sup{b}} @verb{a -- b} @smb end".toList

/-- What it says. -/
def exampleLeaves : List (List Str × Str) :=
  [([], "My ".toList), (["b".toList], "bold -- ".toList), (["b".toList, "i".toList], "and italic".toList), (["b".toList], []),
   ([], " text\n\n".toList), (["featurebox".toList], "A ".toList), (["featurebox".toList, "sup".toList], "b".toList),
   (["featurebox".toList], []), ([], " ".toList), (["verb".toList], "a -- b".toList), ([], " ".toList), ([], " end".toList)]

theorem example_reads : Reads ascii.word ascii.sp ascii.lower exampleText exampleLeaves :=
  reader_reads 100 _ _ (by decide +kernel)

/-- The html of a text. -/
def html (ch : Chars) (s : Str) : Option (List Html) :=
  match page ch s with
  | .error _ => none
  | .ok n => match htmlFmt ch.sp ch.lower n with
    | .error _ => none
    | .ok parts => match toKids (Formats.cleanParts parts) with
      | .error _ => none
      | .ok kids => some kids

/-- The characters of the html that are not spaces, as strings with the elements around them. -/
def shownAs (ch : Chars) (s : Str) : Option (List (List Str × Char)) :=
  (html ch s).map fun kids => (marksAll [] kids).filter fun x => !ch.sp x.2

example : shownAs ascii exampleText =
    some (placed ascii.lower (fun c => !ascii.sp c) (typeset ascii.lower (typo ascii.sp ascii.word) exampleLeaves)) := by
  decide +kernel

example : (match page ascii exampleText with
    | .ok n => match texFmt ascii.sp false n with
      | .ok out => some out
      | .error _ => none
    | .error _ => none) =
    some ("\nMy \\textbf{bold–\\textit{and italic}} text\n\n\\begin{featurebox}\nA \\ensuremath{^{b}}\n\\end{featurebox}\n".toList ++
      "\\verb|a -- b|\n \\ensuremath{\\} end\n".toList) := by
  decide +kernel

/-- Its verbatim text has a delimiter in LaTeX. -/
example : ∀ l ∈ exampleLeaves, '|' ∉ l.2 := by decide

/-! ### Where it is false -/

/-- A verbatim text with a tag in it, in the elements `e`. -/
def verbatimIn (e : List Str) : List (List Str × Char) :=
  ("a@b{c}".toList).map fun c => (e, c)

/-- **C65** is false of verbatim tags with a tag in their text: the text is as it is outside of a paragraph… -/
theorem C65_verbatim_outside : shownAs ascii "@verb{a @b{c}}".toList = some (verbatimIn ["div".toList, "code".toList]) := by
  decide +kernel

/-- … but in another tag in a paragraph it is read again, and the tag in it is a tag. -/
theorem C65_verbatim_again : shownAs ascii "x @foo{@verb{a @b{c}}}".toList =
    some [(["div".toList], 'x'), (["div".toList, "span".toList, "code".toList], 'a'),
      (["div".toList, "span".toList, "code".toList, "strong".toList], 'c')] := by
  decide +kernel

/-- **C65** is false of blank boxes: the box is left out, the texts around it are joined, and read again in the paragraph, so
that there is a tag that is not written. -/
theorem C65_blank_box : shownAs ascii "My @@featurebox{ }b{x} text".toList =
    some ("My".toList.map (fun c => (["div".toList], c)) ++ [(["div".toList, "strong".toList], 'x')] ++
      "text".toList.map (fun c => (["div".toList], c))) := by
  decide +kernel

end Verif.Page
