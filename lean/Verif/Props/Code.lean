import Verif.Spec.Code
import Verif.Props.Paths
import Verif.Props.Formats

/-!
# C90: code tags
-/

namespace Verif.Code

open Verif Verif.Utils Verif.Paths Verif.Attrs Verif.Formats Verif.Render
open Verif.AddFile (Search)

theorem readAll_iff (read : Path → Option Str) (ps : List PyPath) (ts : List Str) :
    readAll read ps = .ok ts ↔ List.Forall₂ (fun p x => read p = some x) (ps.map PyPath.full) ts := by
  induction ps generalizing ts with
  | nil =>
    constructor
    · intro h; cases h; exact .nil
    · intro h; cases h; rfl
  | cons p ps ih =>
    unfold readAll
    cases hr : read p.full with
    | none =>
      constructor
      · intro h; cases h
      · intro h
        cases h with
        | cons h1 _ => rw [hr] at h1; cases h1
    | some s =>
      cases ha : readAll read ps with
      | error e =>
        constructor
        · intro h; cases h
        · intro h
          cases h with
          | cons h1 h2 => rw [(ih _).2 h2] at ha; cases ha
      | ok l =>
        constructor
        · intro h; cases h; exact .cons hr ((ih l).1 ha)
        · intro h
          cases h with
          | cons h1 h2 =>
            rw [hr] at h1; cases h1
            rw [(ih _).2 h2] at ha; cases ha
            rfl

theorem readAll_error (read : Path → Option Str) (ps : List PyPath) (e : Err) (h : readAll read ps = .error e) :
    e = .read ∧ ∃ p ∈ ps, read p.full = none := by
  induction ps with
  | nil => cases h
  | cons p ps ih =>
    unfold readAll at h
    cases hr : read p.full with
    | none => rw [hr] at h; cases h; exact ⟨rfl, p, by simp, hr⟩
    | some s =>
      rw [hr] at h
      cases ha : readAll read ps with
      | ok l => rw [ha] at h; cases h
      | error e' =>
        rw [ha] at h; cases h
        obtain ⟨h1, q, h2, h3⟩ := ih ha
        exact ⟨h1, q, List.mem_cons_of_mem _ h2, h3⟩

theorem onLines_iff (l : List Str) (t : Str) : OnLines l t ↔ l ≠ [] ∧ t = join ['\n'] l := by
  induction l generalizing t with
  | nil => exact ⟨(fun h => by cases h), fun h => absurd rfl h.1⟩
  | cons s l ih =>
    cases l with
    | nil =>
      constructor
      · intro h
        cases h with
        | one => exact ⟨by simp, by simp [join]⟩
        | more _ h => cases h
      · rintro ⟨-, h⟩
        have : t = s := by simpa [join] using h
        subst this; exact .one t
    | cons s2 l =>
      constructor
      · intro h
        cases h with
        | more _ h => exact ⟨by simp, by rw [((ih _).1 h).2]; simp [join]⟩
      · rintro ⟨-, h⟩
        have : t = s ++ '\n' :: join ['\n'] (s2 :: l) := by rw [h]; simp [join]
        subst this
        exact .more s ((ih _).2 ⟨by simp, rfl⟩)

theorem files_found (c : Search) (hps : ∀ p ∈ c.paths, GoodPy p) (s : Str) :
    ∃ r, findFiles c.sp c.brk c.isFile s c.paths = .ok r ∧ r.map PyPath.full = (linesOf c s).filterMap (fileOf c) := by
  obtain ⟨r, h1, h2⟩ := C33_files c.sp c.brk c.isFile s c.paths hps
  exact ⟨r, h1, h2⟩

/-- C90. The code a tag shows: if lines of its text name files, their texts in the order of the lines, each on lines of its own; or else the
text as it is written. -/
theorem C90_content (c : Search) (hps : ∀ p ∈ c.paths, GoodPy p) (read : Path → Option Str) (s t : Str) :
    content c read s = .ok t ↔ Shows c read s t := by
  obtain ⟨r, h1, h2⟩ := files_found c hps s
  unfold content
  rw [h1]
  simp only
  cases r with
  | nil =>
    have h3 : (linesOf c s).filterMap (fileOf c) = [] := h2.symm
    rw [if_neg (by simp)]
    constructor
    · intro h; cases h; exact .text (List.filterMap_eq_nil_iff.1 h3)
    · intro h
      cases h with
      | text _ => rfl
      | files _ _ h4 => exact absurd h3 h4
  | cons p ps =>
    rw [if_pos (by simp)]
    have h3 : (linesOf c s).filterMap (fileOf c) ≠ [] := by rw [← h2]; simp
    constructor
    · intro h
      cases ha : readAll read (p :: ps) with
      | error e => rw [ha] at h; cases h
      | ok ts =>
        rw [ha] at h
        cases h
        have h4 := (readAll_iff read _ ts).1 ha
        rw [h2] at h4
        refine .files ts _ h3 h4 ((onLines_iff _ _).2 ⟨?_, rfl⟩)
        rintro rfl
        cases h5 : (linesOf c s).filterMap (fileOf c) with
        | nil => exact h3 h5
        | cons a b => rw [h5] at h4; cases h4
    · intro h
      cases h with
      | text h4 => exact absurd (List.filterMap_eq_nil_iff.2 h4) h3
      | files ts _ _ h4 h5 =>
        rw [← h2] at h4
        rw [(readAll_iff read _ ts).2 h4, ((onLines_iff _ _).1 h5).2]
        rfl

/-- C90. A tag fails to be made exactly if a file that its lines name cannot be read. -/
theorem C90_unreadable (c : Search) (hps : ∀ p ∈ c.paths, GoodPy p) (read : Path → Option Str) (s : Str) (e : Err) :
    content c read s = .error e ↔ e = .read ∧ ∃ l ∈ linesOf c s, ∃ p, fileOf c l = some p ∧ read p = none := by
  obtain ⟨r, h1, h2⟩ := files_found c hps s
  unfold content
  rw [h1]
  simp only
  have hm : ∀ p, p ∈ r.map PyPath.full ↔ ∃ l ∈ linesOf c s, fileOf c l = some p := by
    intro p; rw [h2, List.mem_filterMap]
  constructor
  · intro h
    cases r with
    | nil => rw [if_neg (by simp)] at h; cases h
    | cons p ps =>
      rw [if_pos (by simp)] at h
      cases ha : readAll read (p :: ps) with
      | ok ts => rw [ha] at h; cases h
      | error e' =>
        rw [ha] at h; cases h
        obtain ⟨he, q, hq, hr⟩ := readAll_error read _ _ ha
        obtain ⟨l, hl, hf⟩ := (hm q.full).1 (List.mem_map_of_mem hq)
        exact ⟨he, l, hl, q.full, hf, hr⟩
  · rintro ⟨rfl, l, hl, p, hf, hr⟩
    have hp := (hm p).2 ⟨l, hl, hf⟩
    cases r with
    | nil => simp at hp
    | cons q qs =>
      rw [if_pos (by simp)]
      cases ha : readAll read (q :: qs) with
      | error e' => obtain ⟨he, -⟩ := readAll_error read _ _ ha; subst he; rfl
      | ok ts =>
        have h4 := (readAll_iff read _ ts).1 ha
        exfalso
        clear ha
        revert hp
        generalize (q :: qs).map PyPath.full = ps at h4
        intro hp
        induction h4 with
        | nil => simp at hp
        | cons h5 _ ih =>
          rcases List.mem_cons.1 hp with rfl | hp
          · rw [hr] at h5; cases h5
          · exact ih hp

/-! ### Formats -/

theorem code_element (d : ADict) (s : Str) :
    element "code".toList d [.text s] = .ok (.elem "code".toList [] (if s = [] then [] else [.text s])) := by
  cases s <;> rfl

/-- C90. In a paragraph, code is shown in html as an element `code` with the code as its text, whatever the attributes of the tag are. -/
theorem C90_inline_html {L : Type} (c : Search) (hps : ∀ p ∈ c.paths, GoodPy p) (read : Path → Option Str) (py : Pygments L)
    (title : Str → Str) (k : Kind) (d : ADict) (s : Str) (h : Html) :
    tagHtml c read py title k d false s = .ok h ↔
      ∃ t, Shows c read s t ∧ h = .elem "code".toList [] (if t = [] then [] else [.text t]) := by
  unfold tagHtml
  cases hc : content c read s with
  | error e =>
    constructor
    · intro h; cases h
    · rintro ⟨t, ht, -⟩; rw [(C90_content c hps read s t).2 ht] at hc; cases hc
  | ok t =>
    simp only [htmlFmt, code_element, Bool.false_eq_true, if_false]
    constructor
    · intro h; cases h; exact ⟨t, (C90_content c hps read s t).1 hc, rfl⟩
    · rintro ⟨t', ht, rfl⟩
      rw [(C90_content c hps read s t').2 ht] at hc; cases hc
      rfl

/-- C90. In LaTeX it is verbatim between two delimiters that are not in it. Missing: code with all of the characters `|`, `!` and `^`, see
`C90_inline_tex_refuted`. -/
theorem C90_inline_tex_partial {L : Type} (c : Search) (hps : ∀ p ∈ c.paths, GoodPy p) (read : Path → Option Str) (py : Pygments L)
    (title : Str → Str) (k : Kind) (d : ADict) (s t : Str) (ht : Shows c read s t) (hd : '|' ∉ t ∨ '!' ∉ t ∨ '^' ∉ t) :
    ∃ q, q ∉ t ∧ tagTex c read py title k d false s = .ok ("\\verb".toList ++ q :: t ++ [q]) := by
  obtain ⟨q, h1, h2⟩ := C28_delimiter_partial t hd
  refine ⟨q, h1, ?_⟩
  unfold tagTex
  rw [(C90_content c hps read s t).2 ht]
  simp only [texFmt, Bool.false_eq_true, if_false, h2]

theorem lexerLoop_iff {L : Type} (py : Pygments L) (title : Str → Str) (d : ADict) (s : Str) (l : L) :
    lexer py title d s = .ok l ↔ LexerOf py title d s l := by
  unfold lexer
  induction d with
  | nil =>
    simp only [List.filter_nil, List.map_nil, lexerLoop]
    constructor
    · intro h
      cases hg : py.guess s with
      | none => rw [hg] at h; cases h
      | some x => rw [hg] at h; cases h; exact .guessed l (by simp) hg
    · intro h
      cases h with
      | named pre post k _ h1 => simp at h1
      | guessed _ _ hg => rw [hg]
  | cons kv d ih =>
    obtain ⟨k, v⟩ := kv
    by_cases hv : v = .pos .string
    · subst hv
      simp only [List.filter_cons, decide_true, if_true, List.map_cons, lexerLoop]
      by_cases hk : Known py title k
      · have hk' : title k ++ "Lexer".toList ∈ py.names := hk
        rw [if_pos hk']
        constructor
        · intro h
          cases hb : py.byName k with
          | none => rw [hb] at h; cases h
          | some x => rw [hb] at h; cases h; exact .named [] d k l rfl (by simp) hk hb
        · intro h
          cases h with
          | named pre post k' _ h1 h2 h3 h4 =>
            cases pre with
            | nil => simp only [List.nil_append, List.cons.injEq, Prod.mk.injEq] at h1; rw [h1.1.1, h4]
            | cons a pre =>
              simp only [List.cons_append, List.cons.injEq] at h1
              exact absurd hk (h2 k (by rw [← h1.1]; simp))
          | guessed _ h1 => exact absurd hk (h1 k (by simp))
      · have hk' : ¬ title k ++ "Lexer".toList ∈ py.names := hk
        rw [if_neg hk', ih]
        constructor
        · intro h
          cases h with
          | named pre post k' _ h1 h2 h3 h4 =>
            refine .named ((k, .pos .string) :: pre) post k' l (by rw [h1]; rfl) (fun x hx => ?_) h3 h4
            rcases List.mem_cons.1 hx with hx | hx
            · cases hx; exact hk
            · exact h2 x hx
          | guessed _ h1 hg =>
            refine .guessed l (fun x hx => ?_) hg
            rcases List.mem_cons.1 hx with hx | hx
            · cases hx; exact hk
            · exact h1 x hx
        · intro h
          cases h with
          | named pre post k' _ h1 h2 h3 h4 =>
            cases pre with
            | nil => simp only [List.nil_append, List.cons.injEq, Prod.mk.injEq] at h1; rw [← h1.1.1] at h3; exact absurd h3 hk
            | cons a pre =>
              simp only [List.cons_append, List.cons.injEq] at h1
              exact .named pre post k' l h1.2 (fun x hx => h2 x (List.mem_cons_of_mem _ hx)) h3 h4
          | guessed _ h1 hg => exact .guessed l (fun x hx => h1 x (List.mem_cons_of_mem _ hx)) hg
    · simp only [List.filter_cons, hv, decide_false, Bool.false_eq_true, if_false]
      rw [ih]
      constructor
      · intro h
        cases h with
        | named pre post k' _ h1 h2 h3 h4 =>
          refine .named ((k, v) :: pre) post k' l (by rw [h1]; rfl) (fun x hx => ?_) h3 h4
          rcases List.mem_cons.1 hx with hx | hx
          · cases hx; exact absurd rfl hv
          · exact h2 x hx
        | guessed _ h1 hg =>
          refine .guessed l (fun x hx => ?_) hg
          rcases List.mem_cons.1 hx with hx | hx
          · cases hx; exact absurd rfl hv
          · exact h1 x hx
      · intro h
        cases h with
        | named pre post k' _ h1 h2 h3 h4 =>
          cases pre with
          | nil => simp only [List.nil_append, List.cons.injEq, Prod.mk.injEq] at h1; exact absurd h1.1.2 hv
          | cons a pre =>
            simp only [List.cons_append, List.cons.injEq] at h1
            exact .named pre post k' l h1.2 (fun x hx => h2 x (List.mem_cons_of_mem _ hx)) h3 h4
        | guessed _ h1 hg => exact .guessed l (fun x hx => h1 x (List.mem_cons_of_mem _ hx)) hg

theorem div_element (h : Html) :
    element "div".toList [("class".toList, .str "code".toList)] [.elem (some h)] = .ok (.elem "div".toList [("class".toList, "code".toList)] [h]) := by
  rfl

theorem extended (k : Kind) (d d' : ADict) : Extended k d d' ↔ d' = attributes k d := by
  cases k <;> exact Iff.rfl

/-- C90. In a paragraph of its own, code is shown as Pygments makes it, with the lexer of the first positional attribute for which there is
one, or else the one guessed. -/
theorem C90_block {L : Type} (c : Search) (hps : ∀ p ∈ c.paths, GoodPy p) (read : Path → Option Str) (py : Pygments L)
    (title : Str → Str) (k : Kind) (d d' : ADict) (hd : Extended k d d') (s t : Str) (ht : Shows c read s t) :
    (∀ h, tagHtml c read py title k d true s = .ok h ↔
      ∃ l, LexerOf py title d' t l ∧ h = .elem "div".toList [("class".toList, "code".toList)] [py.html l "highlight block".toList t]) ∧
    ∀ x, tagTex c read py title k d true s = .ok x ↔ ∃ l, LexerOf py title d' t l ∧ x = py.tex l t := by
  rw [extended] at hd
  subst hd
  unfold tagHtml tagTex
  rw [(C90_content c hps read s t).2 ht]
  simp only [htmlFmt, texFmt, if_true, div_element]
  constructor
  · intro h
    cases hl : lexer py title (attributes k d) t with
    | error e =>
      constructor
      · intro h; cases h
      · rintro ⟨l, h1, -⟩; rw [(lexerLoop_iff py title _ t l).2 h1] at hl; cases hl
    | ok l =>
      constructor
      · intro h; cases h; exact ⟨l, (lexerLoop_iff py title _ t l).1 hl, rfl⟩
      · rintro ⟨l', h1, rfl⟩; rw [(lexerLoop_iff py title _ t l').2 h1] at hl; cases hl; rfl
  · intro x
    cases hl : lexer py title (attributes k d) t with
    | error e =>
      constructor
      · intro h; cases h
      · rintro ⟨l, h1, -⟩; rw [(lexerLoop_iff py title _ t l).2 h1] at hl; cases hl
    | ok l =>
      constructor
      · intro h; cases h; exact ⟨l, (lexerLoop_iff py title _ t l).1 hl, rfl⟩
      · rintro ⟨l', h1, rfl⟩; rw [(lexerLoop_iff py title _ t l').2 h1] at hl; cases hl; rfl

/-! ### Cases -/

/-- A project with two files, in the directory of the document and in that of the project. -/
def searchEx : Search where
  sp := (· = ' ')
  brk := (· = '\n')
  isFile p := .ok (p = parse "/p/src/a/one.py".toList ∨ p = parse "/p/src/two.py".toList)
  paths := [.source ⟨parse "/p/src".toList, parse "a".toList⟩, .source ⟨parse "/p/src".toList, parse ".".toList⟩]

def readEx (p : Path) : Option Str :=
  if p = parse "/p/src/a/one.py".toList then some "x = 1".toList else if p = parse "/p/src/two.py".toList then some "y = 2\n".toList else none

/-- The lexers for two languages, by their names. -/
def pyEx : Pygments Str where
  names := ["PythonLexer".toList, "RubyLexer".toList]
  byName k := if k = "python".toList ∨ k = "ruby".toList then some k else none
  guess _ := some "text".toList
  html l cls s := .elem "div".toList [("class".toList, cls)] [.text (l ++ ": ".toList ++ s)]
  tex l s := l ++ ": ".toList ++ s

def titleEx : Str → Str
  | [] => []
  | c :: s => c.toUpper :: s

theorem goodEx : ∀ p ∈ searchEx.paths, GoodPy p := by
  intro p hp
  simp only [searchEx, List.mem_cons, List.not_mem_nil, or_false] at hp
  rcases hp with rfl | rfl <;> exact ⟨parse_good _, parse_good _, by decide⟩

example : content searchEx readEx " one.py\n\ntwo.py ".toList = .ok "x = 1\ny = 2\n".toList := by rfl

example : content searchEx readEx "a = b\nprint a ".toList = .ok "a = b\nprint a ".toList := by rfl

example : Shows searchEx readEx " one.py\n\ntwo.py ".toList "x = 1\ny = 2\n".toList := (C90_content _ goodEx _ _ _).1 (by rfl)

example : tagHtml searchEx readEx pyEx titleEx .code [("class".toList, .str "c".toList)] false "a < b".toList =
    .ok (.elem "code".toList [] [.text "a < b".toList]) := by rfl

example : tagHtml searchEx readEx pyEx titleEx .python [] true "one.py".toList =
    .ok (.elem "div".toList [("class".toList, "code".toList)]
      [.elem "div".toList [("class".toList, "highlight block".toList)] [.text "python: x = 1".toList]]) := by rfl

example : tagTex searchEx readEx pyEx titleEx .dm [("c".toList, .pos .string), ("ruby".toList, .pos .string)] true "a".toList =
    .ok "ruby: a".toList := by rfl

example : tagTex searchEx readEx pyEx titleEx .dm [] true "a".toList = .ok "text: a".toList := by rfl

/-- C90. Code in LaTeX is not always verbatim: with all of the three delimiters it is put in the file as it is, as LaTeX code. -/
theorem C90_inline_tex_refuted : tagTex searchEx readEx pyEx titleEx .code [] false "a|b ! \\x ^ {".toList = .ok "a|b ! \\x ^ {".toList := by rfl

/-- C90. Not all of the text is shown: if one of the lines names a file, the lines that name none are lost. -/
theorem C90_lines_refuted : content searchEx readEx "# first\none.py\n# last".toList = .ok "x = 1".toList := by rfl

end Verif.Code
