import Verif.Lemmas.RenderHtml

/-!
# C52, C53: the rendering of tags in LaTeX and html
-/

set_option linter.unusedVariables false

namespace Verif.Render

open Verif Verif.Attrs Verif.Attrs.Spec Verif.Formats Verif.Render.Spec Verif.Parser.Spec

/-- What a space is in the examples. -/
def space (c : Char) : Bool := c == ' ' || c == '\n' || c == '\t'

/-- **C52** (`_partial`: headings without a label lose their text, see `C52_heading_lost`, and `@verb` has three
delimiters only). In LaTeX a tree of tags is written with each tag as its command or environment around what its content
is written as, and lists one after the other. -/
theorem C52_written_partial (sp : Char → Bool) (math : Bool) (n : Node) (out : Str) (hs : Sayable n)
    (h : texFmt sp math n = .ok out) : Written sp math n out :=
  (written sp math n out hs h).1

/-- **C52** (`_partial`: as before). All the texts of the tree are in the LaTeX, whole and in order. -/
theorem C52_texts_partial (sp : Char → Bool) (math : Bool) (n : Node) (out : Str) (hs : Sayable n)
    (h : texFmt sp math n = .ok out) : ∃ ts, HasTexts sp true n ts ∧ InOrder ts out :=
  written_texts sp math n out hs (C52_written_partial sp math n out hs h)

/-- **C52**. A tree has one list of texts, in LaTeX and in html. -/
theorem C52_texts_unique (sp : Char → Bool) (tex : Bool) (n : Node) (ts us : List Str) (h1 : HasTexts sp tex n ts)
    (h2 : HasTexts sp tex n us) : ts = us := texts_unique sp tex n ts us h1 h2

/-- **C52** (`_partial`: as before). The braces of the LaTeX are balanced if those of each text are. -/
theorem C52_balanced_partial (sp : Char → Bool) (math : Bool) (n : Node) (out : Str) (hs : Sayable n)
    (hb : NoBraces n) (h1 : sp '{' = false) (h2 : sp '}' = false)
    (ht : ∀ ts, HasTexts sp true n ts → ∀ t ∈ ts, Balanced t) (h : texFmt sp math n = .ok out) : Balanced out :=
  written_balanced sp math n out hs (C52_written_partial sp math n out hs h) hb h1 h2 ht

/-- **C52** (`_partial`: as before). There is LaTeX for exactly the trees without lists in lists whose equations
have a colour with a name and an environment that there is. -/
theorem C52_renders_partial (sp : Char → Bool) (math : Bool) (n : Node) (hs : Sayable n) :
    (∃ out, texFmt sp math n = .ok out) ↔ Flat leaves (some math) n :=
  ⟨fun ⟨out, h⟩ => (written sp math n out hs h).2, fun h => flat_ok sp math n h⟩

/-- **C52** is false of headings without a label: their text is not in the LaTeX. -/
theorem C52_heading_lost (sp : Char → Bool) (math : Bool) (c : Node) :
    texFmt sp math (.tag .chapter "chapter".toList [("nolabel".toList, .pos .string)] c) = .ok "\\chapter{}".toList := by
  rfl

/-- A tree with most of the tags. -/
def sample : Node :=
  .tag .body "body".toList []
    (.list [.tag .p "p".toList [] (.list [.str "My ".toList, .tag .bold "b".toList [] (.str "bold".toList), .str " text".toList]),
      .tag .featurebox "featurebox".toList [("class".toList, .str "wide".toList)]
        (.list [.tag .supsub "supsub".toList [] (.str "a && b".toList), .tag .symbol "symbol".toList [] (.str "alpha".toList)])])

example : Sayable sample ∧ NoBraces sample := by
  simp [sample, Sayable, SayableAll, headings, NoBraces, NoBracesAll, Dict.keys]

example : texFmt space false sample =
    .ok ("\nMy \\textbf{bold} text\n\n\\begin{featurebox}\n\\ensuremath{^{a}_{b}}\\ensuremath{\\alpha}\n\\end{featurebox}\n").toList := by
  rfl

/-- A tree with an equation in a paragraph, and one in its content. -/
def equation : Node :=
  .tag .p "p".toList []
    (.eq true "eq".toList [("env".toList, .str "alignat*".toList), ("2".toList, .pos .int)]
      (some (.ok [("blue".toList, .pos .string)]))
      (.list [.str " y = ".toList, .eq false "termb".toList [] none (.str "x ".toList) (.ok (.text [])),
        .tag .sup "sup".toList [] (.str "2".toList), .str "\n".toList]) (.ok (.elem "img".toList [("src".toList, "/a.svg".toList)] [])))

example : Sayable equation ∧ NoBraces equation := by
  simp [equation, Sayable, SayableAll, headings, NoBraces, NoBracesAll, Dict.keys]
  rintro k v (⟨rfl, rfl⟩ | ⟨rfl, rfl⟩) <;> simp

example : texFmt space false equation =
    .ok "\\begin{alignat*}{2} %\n\\textcolor{blue}{y = \\boldsymbol{x}^{2}}\n\\end{alignat*}".toList := by
  rfl

/-- An equation in an environment that there is not has no LaTeX, but is fine in mathematics. -/
example : (∃ out, texFmt space true (.eq true "eq".toList [("env".toList, .str "equation".toList)] none (.str "x".toList)
      (.error .type)) = .ok out) ∧
    ¬ ∃ out, texFmt space false (.eq true "eq".toList [("env".toList, .str "equation".toList)] none (.str "x".toList)
      (.error .type)) = .ok out :=
  ⟨⟨_, rfl⟩, fun ⟨_, h⟩ => by
    have : texFmt space false (.eq true "eq".toList [("env".toList, .str "equation".toList)] none (.str "x".toList)
      (.error .type)) = .error (.tex .notAllowed) := rfl
    rw [this] at h; simp at h⟩

/-- **C53**. In html a tree of tags is shown with each tag as its element, with its class and attributes, around what its
content is shown by, and lists one after the other. -/
theorem C53_shown (sp : Char → Bool) (lower : Str → Str) (n : Node) (parts : List (Part (Option Html))) (kids : List Html)
    (h : htmlFmt sp lower n = .ok parts) (hk : toKids (cleanParts parts) = .ok kids) : Shown sp lower n kids :=
  shown sp lower n parts kids h hk

/-- **C53**. The texts of the html are the texts of the tree, whole and in order, apart from those that are empty. -/
theorem C53_texts (sp : Char → Bool) (lower : Str → Str) (n : Node) (parts : List (Part (Option Html))) (kids : List Html)
    (hs : Sound n) (h : htmlFmt sp lower n = .ok parts) (hk : toKids (cleanParts parts) = .ok kids) (ts : List Str)
    (ht : HasTexts sp false n ts) : (htmlTextsAll kids).filter (· ≠ []) = ts.filter (· ≠ []) :=
  shown_texts sp lower n kids hs (C53_shown sp lower n parts kids h hk) ts ht

/-- **C53**. All the elements and attributes of the html are in the tables of the settings. -/
theorem C53_allowed (sp : Char → Bool) (lower : Str → Str) (n : Node) (parts : List (Part (Option Html))) (kids : List Html)
    (hs : Sound n) (h : htmlFmt sp lower n = .ok parts) (hk : toKids (cleanParts parts) = .ok kids) : AllAllowedAll kids :=
  shown_allowed sp lower n kids hs (C53_shown sp lower n parts kids h hk)

/-- **C53**. There is html for exactly the trees without lists in lists whose tags have the attributes that are required. -/
theorem C53_renders (sp : Char → Bool) (lower : Str → Str) (n : Node) :
    (∃ parts kids, htmlFmt sp lower n = .ok parts ∧ toKids (cleanParts parts) = .ok kids) ↔
      Flat [.supsub, .symbol] none n ∧ AttrsFine lower n :=
  ⟨fun ⟨parts, kids, h, hk⟩ => ok_fine sp lower n parts kids h hk, fun ⟨hf, ha⟩ => fine_ok sp lower n hf ha⟩

example : (htmlFmt space id sample).bind (fun ps => toKids (cleanParts ps)) =
    .ok [.elem "div".toList [("class".toList, "body".toList)]
      [.elem "p".toList [] [.text "My ".toList, .elem "strong".toList [] [.text "bold".toList], .text " text".toList],
       .elem "div".toList [("class".toList, "wide featurebox".toList)]
        [.elem "span".toList [("class".toList, "supsub".toList)] [.text "a".toList, .elem "br".toList [] [], .text "b".toList],
         .entity "alpha".toList]]] := by
  rfl

example : Sound sample ∧ Sound equation := by
  refine ⟨by simp [sample, Sound, SoundAll], ?_⟩
  simp only [equation, Sound]
  intro h hh
  simp only [Except.ok.injEq] at hh
  subst hh
  refine ⟨by simp [htmlTexts, htmlTextsAll], by decide, ?_, trivial⟩
  intro k v hv
  have hm := Dict.mem_of_get? _ _ _ hv
  simp only [List.mem_cons, Prod.mk.injEq, List.not_mem_nil, or_false] at hm
  rw [hm.1]
  decide

/-- A tag `@a` without `href` has no html. -/
example : ¬ ∃ parts kids, htmlFmt space id (.tag .generic "a".toList [] (.str "x".toList)) = .ok parts ∧
    toKids (cleanParts parts) = .ok kids := by
  rw [C53_renders]
  rintro ⟨_, h⟩
  simp only [AttrsFine] at h
  exact (h.2.1 (by decide) (by decide) "a".toList (Or.inr ⟨by decide, rfl⟩)).1 "href".toList (by decide) rfl

end Verif.Render
