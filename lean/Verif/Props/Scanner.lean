import Verif.Lemmas.Scanner

/-!
# Properties of the scan for dependencies
-/

namespace Verif.Scanner

open Verif Verif.Paths

/-- C61. Of a page whose links are usual ones, exactly the names in its links are found, in order. -/
theorem C61_found (sp : Char → Bool) (hgt : sp '>' = false) (hh : sp 'h' = false) (hs : sp 's' = false) (text : Str) (names : List Str)
    (h : Names sp text names) : stubs sp text = names :=
  names_stubs sp hgt hh hs text names h

/-- C61. Of any page, each name that is found is that of a `link` or an `img` tag of the page, and has no protocol. -/
theorem C61_sound (sp : Char → Bool) (hgt : sp '>' = false) (text n : Str) (h : n ∈ stubs sp text) :
    ¬ "://".toList <:+: n ∧ ∃ tag key, ((tag = "<link".toList ∧ key = "href=".toList) ∨ (tag = "<img".toList ∧ key = "src=".toList)) ∧
      ∃ pre link post gap attrs opened q, text = pre ++ link ++ post ∧ IsLink sp tag key gap attrs opened n q link := by
  unfold stubs at h
  rw [List.mem_filter, List.mem_append] at h
  obtain ⟨h1, h2⟩ := h
  refine ⟨(fun e => by rw [(contains_iff _ _).2 e] at h2; cases h2), ?_⟩
  rcases h1 with h1 | h1
  · exact ⟨_, _, .inl ⟨rfl, rfl⟩, links_sound sp hgt _ _ _ _ _ h1⟩
  · exact ⟨_, _, .inr ⟨rfl, rfl⟩, links_sound sp hgt _ _ _ _ _ h1⟩

/-- C61. The scan of parameters gives, for the pages among them, the files their links lead to. -/
theorem C61_scan (sp : Char → Bool) (hgt : sp '>' = false) (hh : sp 'h' = false) (hs : sp 's' = false) (files : Files) (raise : Bool)
    (ps : List PyPath) (hg : ∀ p ∈ ps, GoodPy p)
    (hall : ∀ p ∈ ps, ∀ root dir text, IsPage files p root dir text → ∃ names, Names sp text names) (ls : List SourcePath) :
    scan sp files raise ps = .ok ls ↔ Scanned files (Names sp) ps ls :=
  scan_iff sp files raise (Names sp) ps hg (fun text l h => names_stubs sp hgt hh hs text l h) hall ls

/-- C61. The scan fails if and only if a link of one of the pages leads to no file. -/
theorem C61_missing (sp : Char → Bool) (hgt : sp '>' = false) (hh : sp 'h' = false) (hs : sp 's' = false) (files : Files)
    (ps : List PyPath) (hg : ∀ p ∈ ps, GoodPy p)
    (hall : ∀ p ∈ ps, ∀ root dir text, IsPage files p root dir text → ∃ names, Names sp text names) :
    scan sp files true ps = .error .fileNotFound ↔
      ∃ p ∈ ps, ∃ root dir text names, IsPage files p root dir text ∧ Names sp text names ∧
        ∃ n ∈ names, ∀ x, ¬ LeadsTo files root dir n x := by
  obtain ⟨h1, h2⟩ := scan_error sp files true ps hg
  constructor
  · intro h
    obtain ⟨-, p, hp, root, dir, text, hpage, n, hn, hno⟩ := h1 _ h
    obtain ⟨names, hnames⟩ := hall p hp root dir text hpage
    rw [names_stubs sp hgt hh hs text names hnames] at hn
    exact ⟨p, hp, root, dir, text, names, hpage, hnames, n, hn, hno⟩
  · rintro ⟨p, hp, root, dir, text, names, hpage, hnames, n, hn, hno⟩
    obtain ⟨e, he⟩ := h2 ⟨p, hp, root, dir, text, hpage, n, by rw [names_stubs sp hgt hh hs text names hnames]; exact hn, hno⟩
    rw [he, (h1 e he).1]
    rfl

/-- C61. The file found for a link exists, and is given by the root of the page and a relative path. -/
theorem C61_exist (sp : Char → Bool) (files : Files) (raise : Bool) (ps : List PyPath) (hg : ∀ p ∈ ps, GoodPy p) (ls : List SourcePath)
    (h : scan sp files raise ps = .ok ls) (x : SourcePath) (hx : x ∈ ls) :
    x.sub.abs = false ∧ (files ⟨x.root.abs, x.root.parts ++ x.sub.parts⟩ ≠ none) ∧ ∃ p ∈ ps, ∃ dir text, IsPage files p x.root dir text := by
  have hs := (scan_iff sp files raise (fun t l => stubs sp t = l) ps hg (fun _ _ h => h) (fun _ _ _ _ t _ => ⟨_, rfl⟩) ls).1 h
  clear h
  induction hs with
  | nil => cases hx
  | page p root dir text ns l ls ps hp hns hl _ ih =>
    rcases List.mem_append.1 hx with hx | hx
    · obtain ⟨g1, g2, g3⟩ := page_good files p (hg p (by simp)) root dir text hp
      have gen : ∀ ns l, LeadTo files root dir ns l → ∀ x ∈ l, x.root = root ∧ x.sub.abs = false ∧
          files ⟨x.root.abs, x.root.parts ++ x.sub.parts⟩ ≠ none := by
        intro ns l hl
        induction hl with
        | nil => intro x hx; cases hx
        | cons s p' ss ps' h1 _ ih =>
          intro x hx
          rcases List.mem_cons.1 hx with rfl | hx
          · have habs : ∀ rel : Str, rel.head? ≠ some '/' → (parse rel).abs = false := by
              intro rel hr
              simp only [parse, decide_eq_false_iff_not]
              exact hr
            cases h1 with
            | dir a b rel t e1 e2 e3 e4 e5 =>
              have hb : (div dir (parse rel)).abs = false := by rw [div, habs rel e3]; exact g3
              refine ⟨rfl, hb, ?_⟩
              have : div root (div dir (parse rel)) = ⟨root.abs, root.parts ++ (div dir (parse rel)).parts⟩ := by rw [div, hb]; rfl
              rw [this] at e5
              rw [e5]; simp
            | root a b rel t e1 e2 e3 e4 e5 e6 =>
              have hb := habs rel e3
              refine ⟨rfl, hb, ?_⟩
              have : div root (parse rel) = ⟨root.abs, root.parts ++ (parse rel).parts⟩ := by rw [div, hb]; rfl
              rw [this] at e6
              rw [e6]; simp
          · exact ih x hx
      obtain ⟨k1, k2, k3⟩ := gen _ _ hl x hx
      exact ⟨k2, k3, p, by simp, dir, text, by rw [k1]; exact hp⟩
    · obtain ⟨k1, k2, p', hp', k3⟩ := ih (fun q hq => hg q (by simp [hq])) hx
      exact ⟨k1, k2, p', by simp [hp'], k3⟩
  | other p ps ls hp _ ih =>
    obtain ⟨k1, k2, p', hp', k3⟩ := ih (fun q hq => hg q (by simp [hq])) hx
    exact ⟨k1, k2, p', by simp [hp'], k3⟩

section Examples

def space (c : Char) : Bool := c = ' ' || c = '\n' || c = '\t'

/-- A page with links in the form of the templates, and a link to another site. -/
def page : Str := "<head><link rel=\"stylesheet\" href=\"{{ \"/media/css/default.css\" | rewrite_path }}\">\n<link href='a.css'></head>
<img src = 'x'><img alt='y' src=\"fig/1.png\"/><link href=\"https://x.org/y.css\">".toList

set_option maxRecDepth 20000 in
example : stubs space page = ["/media/css/default.css".toList, "a.css".toList, "fig/1.png".toList] := by decide

/-- A page that meets the specification. -/
theorem names_example : Names space "<p><link href=\"a.css\"></p>".toList ["a.css".toList] := by
  refine ⟨["a.css".toList], [], ?_, .text _ (fun h => absurd ((contains_iff _ _).2 h) (by decide)), ?_⟩
  · refine .link "<p>".toList "<link href=\"a.css\"".toList [' '] [] ['"'] "a.css".toList "></p>".toList '"' []
      (fun h => absurd ((contains_iff _ _).2 h) (by decide)) ⟨rfl, by decide, .inl rfl, by decide, by simp [Opens], by decide, .inl rfl⟩ ?_
      (.text _ (fun h => absurd ((contains_iff _ _).2 h) (by decide)))
    refine ⟨?_, ⟨'a', ".css".toList, rfl, by decide, by decide⟩, by decide, ?_, ?_⟩
    · intro c hc
      cases hc
      decide
    · intro a c b h _
      have := congrArg List.length h
      simp at this
      exact List.length_eq_zero_iff.1 (by omega)
    · intro _ a c b h hc
      have hall : ∀ x ∈ "href=".toList ++ ['"'] ++ "a.css".toList ++ ['"'] ++ "></p>".toList, space x = false := by decide
      have := hall c (by rw [h]; simp)
      rw [hc] at this; cases this
  · exact .local _ _ _ (fun h => absurd ((contains_iff _ _).2 h) (by decide)) .nil

def site : Files := fun p =>
  if p = parse "/s/html/sub/p.html".toList then some page
  else if p = parse "/s/html/media/css/default.css".toList then some []
  else if p = parse "/s/html/sub/a.css".toList then some []
  else if p = parse "/s/html/a.css".toList then some []
  else if p = parse "/s/html/fig/1.png".toList then some [] else none

def pageParam : PyPath := .target ⟨parse "/s".toList, parse "html".toList, parse "sub/p.html".toList⟩

set_option maxRecDepth 20000 in
/-- The links of a page in a subdirectory: to the root, to its own directory first, and to the root again. -/
example : scan space site true [.plain (parse "x.html".toList), pageParam] = .ok
    [⟨parse "/s/html".toList, parse "media/css/default.css".toList⟩, ⟨parse "/s/html".toList, parse "sub/a.css".toList⟩,
     ⟨parse "/s/html".toList, parse "fig/1.png".toList⟩] := by rfl

/-- Finding: without `raise_error` a link that leads nowhere is an `IndexError` rather than a link that is left out. -/
theorem C61_not_raised : ∃ (files : Files) (p : PyPath), scan space files false [p] = .error .indexError ∧
    scan space files true [p] = .error .fileNotFound :=
  ⟨fun p => if p = parse "/s/p.html".toList then some "<img src='x.png'>".toList else none,
    .source ⟨parse "/s".toList, parse "p.html".toList⟩, by rfl, by rfl⟩

/-- Finding: the name of a tag is that of its second `href`, if the first is directly behind the name of the tag. -/
theorem C61_second : stubs space "<link href=\"a.css\" data href=\"b.css\">".toList = ["b.css".toList] ∧
    stubs space "<link rel href=\"a.css\" data href=\"b.css\">".toList = ["a.css".toList] := by decide

/-- Finding: a name without quotes is read up to the next quote of the line, even behind the end of the tag. -/
theorem C61_unquoted : stubs space "<link href= a.css><p class=\"x\">".toList = ["a.css><p class=".toList] := by decide

end Examples

end Verif.Scanner
