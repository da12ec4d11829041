import Verif.Lemmas.Media

/-!
# C63: images
-/

set_option linter.unusedSimpArgs false
set_option linter.unusedVariables false

namespace Verif.Media

open Verif Verif.Attrs Verif.Attrs.Spec Verif.Formats Verif.Render Verif.Render.Spec Verif.Media.Spec Verif.Paths Verif.Links

/-! ### The files -/

/-- **C63**. However often, and in whatever order, an image is rendered for its targets, each rendering has the file of its
target, and there is one build for each target that is rendered (and has a builder), with the parameters of that target. -/
theorem C63_once {P : Type} (emit : Str → P → Option TargetPath) (params : Str → P) (ts : List Str) :
    (renderings emit params true ts ⟨[], []⟩).1 = ts.map (fun t => emit t (params t)) ∧
    ((renderings emit params true ts ⟨[], []⟩).2.builds.map Prod.fst).Nodup ∧
    ∀ t p, (t, p) ∈ (renderings emit params true ts ⟨[], []⟩).2.builds ↔ t ∈ ts ∧ p = params t ∧ emit t p ≠ none := by
  obtain ⟨h1, ⟨_, h3, h4⟩, h5⟩ := renderings_own emit params ts ⟨[], []⟩ ⟨by simp [Dict.get?], by simp, by simp⟩
  refine ⟨h1, h3, ?_⟩
  intro t p
  constructor
  · intro hm
    obtain ⟨e, hn⟩ := h4 _ hm
    simp only at e hn
    have := (h5 t).1 (List.mem_map.2 ⟨_, hm, rfl⟩)
    simp only [List.map_nil, List.not_mem_nil, false_or] at this
    exact ⟨this.1, e, hn⟩
  · rintro ⟨ht, rfl, hn⟩
    obtain ⟨⟨t', p'⟩, hm, rfl⟩ := List.mem_map.1 ((h5 t).2 (Or.inr ⟨ht, hn⟩))
    obtain ⟨e, _⟩ := h4 _ hm
    simp only at e hm ⊢
    rw [e] at hm
    exact hm

example : (renderings (fun t (_ : Unit) => some ⟨⟨false, []⟩, ⟨false, [t]⟩, ⟨false, ["a.svg".toList]⟩⟩) (fun _ => ()) true
    [".html".toList, ".tex".toList, ".html".toList] ⟨[], []⟩).2.builds = [(".html".toList, ()), (".tex".toList, ())] := by
  decide

/-- Finding: the html of an equation gives its attributes and context when it adds its file, and so each rendering adds
another build of the same image. -/
theorem C63_equation_again {P : Type} (emit : Str → P → Option TargetPath) (params : Str → P) (ts : List Str)
    (h : ∀ t ∈ ts, emit t (params t) ≠ none) (st : Store P) :
    (renderings emit params false ts st).2.builds = st.builds ++ ts.map fun t => (t, params t) := by
  rw [(renderings_given emit params ts st).2, List.filter_eq_self.2]
  intro t ht
  exact Option.isSome_iff_ne_none.2 (h t ht)

example : ¬ ((renderings (fun t (_ : Unit) => some ⟨⟨false, []⟩, ⟨false, [t]⟩, ⟨false, ["a.svg".toList]⟩⟩) (fun _ => ()) false
    [".html".toList, ".html".toList] ⟨[], []⟩).2.builds.map Prod.fst).Nodup := by
  decide

/-! ### LaTeX -/

/-- **C63**. In LaTeX an image is the command that includes its file, with its width and height as options, and no others. -/
theorem C63_image_tex (parse parsePct : Str → Option PyFloat) (clsStr : PType → Str) (d : ADict) (file : TargetPath) (out : Str)
    (hf : GoodPy (.target file)) (hname : file.sub.parts ≠ [])
    (hw : ∀ w, valueFor d "tex".toList "width".toList = some (.str w) → ¬ Suffixed trackedTargets w)
    (h : imgTex parse parsePct clsStr d file = .ok out) :
    ∃ path es o, FileText file path ∧ Includes path o out ∧ Bracketed es o ∧ (es.map Prod.fst).Nodup ∧
      ∀ n v, (n, v) ∈ es ↔ ImgOption parse parsePct clsStr d n v := by
  unfold imgTex at h
  cases hd : texPercentwidth parse parsePct clsStr trackedTargets d ".tex".toList false with
  | none => rw [hd] at h; simp at h
  | some d' =>
    obtain ⟨base, b1, b2, b3⟩ := base_ext file hf hname
    simp only [hd, b1] at h
    have hne : file.full.parts ≠ [] := by
      obtain ⟨p, n, hp, _⟩ := full_child file hf hname
      rw [hp]; simp [child]
    refine ⟨toStr file.full, ?_⟩
    by_cases ha : (toStr file.full).all isAscii = true
    · rw [if_pos ha] at h
      simp only [Except.bind] at h
      obtain ⟨o, es, c1, c2, c3, c4⟩ := cmd_include d' ('{' :: toStr base ++ '}' :: suffix file.full)
      rw [c1, Except.ok.injEq] at h
      refine ⟨es, o, toStr_text file hf hne, ⟨toStr base, suffix file.full, b2, b3, ?_, ?_⟩, c4, c2, ?_⟩
      · intro _
        rw [← h]
        simp
      · rintro ⟨c, hc, hl⟩
        have := (allAscii _).1 ha c hc
        omega
      · intro n v
        rw [c3, ← width_tex parse parsePct clsStr d d' hw hd]
    · rw [if_neg ha, cmd_eq _ _ _ rfl (by decide)] at h
      simp only [Except.bind] at h
      obtain ⟨o, es, c1, c2, c3, c4⟩ := cmd_include d'
        ('{' :: ('\\' :: "detokenize".toList ++ '{' :: toStr base ++ ['}']) ++ '}' :: suffix file.full)
      rw [c1, Except.ok.injEq] at h
      refine ⟨es, o, toStr_text file hf hne, ⟨toStr base, suffix file.full, b2, b3, ?_, ?_⟩, c4, c2, ?_⟩
      · intro hall
        exact absurd ((allAscii _).2 hall) ha
      · intro _
        rw [← h]
        simp
      · intro n v
        rw [c3, ← width_tex parse parsePct clsStr d d' hw hd]

/-- **C63**. An image has LaTeX unless its width is infinite. -/
theorem C63_tex_renders (parse parsePct : Str → Option PyFloat) (clsStr : PType → Str) (d : ADict) (file : TargetPath)
    (hf : GoodPy (.target file)) (hname : file.sub.parts ≠ [])
    (hw : ∀ w, valueFor d "tex".toList "width".toList = some (.str w) → ¬ Suffixed trackedTargets w) :
    (∃ out, imgTex parse parsePct clsStr d file = .ok out) ↔
      ∀ w, valueFor d "tex".toList "width".toList = some (.str w) → percentage parse parsePct (.str w) ≠ none := by
  have hg := get_tex d "width".toList "tex".toList (by decide)
  have ht : ".tex".toList = '.' :: "tex".toList := rfl
  obtain ⟨base, b1, b2, b3⟩ := base_ext file hf hname
  have key : (∃ out, imgTex parse parsePct clsStr d file = .ok out) ↔
      texPercentwidth parse parsePct clsStr trackedTargets d ".tex".toList false ≠ none := by
    unfold imgTex
    cases hd : texPercentwidth parse parsePct clsStr trackedTargets d ".tex".toList false with
    | none => simp
    | some d' =>
      simp only [b1]
      refine iff_of_true ?_ (by simp)
      by_cases ha : (toStr file.full).all isAscii = true
      · rw [if_pos ha]
        obtain ⟨o, es, c1, _⟩ := cmd_include d' ('{' :: toStr base ++ '}' :: suffix file.full)
        exact ⟨_, c1⟩
      · rw [if_neg ha, cmd_eq _ _ _ rfl (by decide)]
        obtain ⟨o, es, c1, _⟩ := cmd_include d'
          ('{' :: ('\\' :: "detokenize".toList ++ '{' :: toStr base ++ ['}']) ++ '}' :: suffix file.full)
        exact ⟨_, c1⟩
  rw [key]
  unfold texPercentwidth
  rw [ht, hg]
  cases hv : valueFor d "tex".toList "width".toList with
  | none => simp
  | some u =>
    cases u with
    | pos t => simp
    | str w =>
      simp only [Option.map_some, stripAttr_not_suffixed _ _ (hw w hv)]
      cases hp : percentage parse parsePct (.str w) with
      | none => simp [hp]
      | some r =>
        simp only [ne_eq, Option.some.injEq, AVal.str.injEq]
        refine iff_of_true ?_ ?_
        · cases r.bind texWidth <;> simp
        · rintro w' rfl; rw [hp]; simp

def half (s : Str) : Option PyFloat := if s = "50%".toList then some (.fin 50) else none

def picture : TargetPath := ⟨⟨true, ["p".toList]⟩, ⟨false, ["tex".toList]⟩, ⟨false, ["media".toList, "a.b.pdf".toList]⟩⟩
def accented : TargetPath := ⟨⟨true, ["p".toList]⟩, ⟨false, ["tex".toList]⟩, ⟨false, ["é.pdf".toList]⟩⟩

example : imgTex half half (fun _ => []) [("width".toList, .str "50%".toList), ("height".toList, .str "2cm".toList)] picture =
    .ok "\\includegraphics[width=0.49\\textwidth, height=2cm]{{/p/tex/media/a.b}.pdf}".toList := by
  decide +kernel

example : imgTex half half (fun _ => []) [] accented = .ok "\\includegraphics{{\\detokenize{/p/tex/é}}.pdf}".toList := by
  decide +kernel

example : GoodPy (.target picture) ∧ picture.sub.parts ≠ [] := by
  refine ⟨⟨?_, ?_, ?_, rfl, rfl, Or.inr ⟨by decide, by decide⟩⟩, by decide⟩ <;> (unfold Good IsName; decide)

/-- Finding: a width for LaTeX only, like `width.tex=50%`, is left as it is, and the `%` starts a comment in LaTeX. -/
theorem C63_tex_width_raw :
    imgTex half half (fun _ => []) [("width.tex".toList, .str "50%".toList)] picture =
      .ok "\\includegraphics[width=50%]{{/p/tex/media/a.b}.pdf}".toList := by
  decide +kernel

/-! ### Html -/

/-- **C63**. In html an image is the element `img` whose source leads, from the page, to the file of the image. It has the
class of its width, and the alternate text and style that are given; it has no other attributes. -/
theorem C63_image_html (parse parsePct : Str → Option PyFloat) (cwd : List Str) (hcwd : ∀ c ∈ cwd, IsName c)
    (page file : TargetPath) (hp : GoodPy (.target page)) (hf : GoodPy (.target file)) (hname : page.sub.parts ≠ [])
    (ctx : Ctx) (hrel : ctx.relative ≠ some false) (files : Files) (hdoc : ctx.document = some files)
    (t : Str) (ht : t ∈ ["html".toList, "xhtml".toList]) (hpage : files ('.' :: t) = .ok (some page)) (d : ADict)
    (hw : ∀ w, valueFor d t "width".toList = some (.str w) → ¬ Suffixed trackedTargets w) (h : Html)
    (hh : imgHtml parse parsePct cwd ctx d ('.' :: t) file = .ok h) :
    ∃ attrs url cls, h = .elem "img".toList attrs [] ∧ Leads cwd page url file ∧
      ImgClass parse parsePct (valueFor d t "width".toList) (d.get? "class".toList) cls ∧
      ∀ k v, attrs.get? k = some v ↔ k = "src".toList ∧ v = url ∨ k = "class".toList ∧ cls = some (.str v) ∨
        k ∈ ["alt".toList, "style".toList] ∧ d.get? k = some (.str v) := by
  obtain ⟨url, u1, u2⟩ := url_leads cwd hcwd page file hp hf hname ctx hrel files hdoc t
    (by
      simp only [List.mem_cons, List.not_mem_nil, or_false] at ht
      rcases ht with rfl | rfl <;> decide) hpage
  unfold imgHtml at hh
  simp only [u1] at hh
  obtain ⟨w1, _⟩ := width_html parse parsePct d t ht hw
  cases hd : xhtmlPercentwidth parse parsePct trackedTargets d ('.' :: t) with
  | none => rw [hd] at hh; simp at hh
  | some d' =>
    obtain ⟨w2, w3⟩ := w1 d' hd
    simp only [hd] at hh
    obtain ⟨attrs, rfl, ha⟩ := img_element d' url h hh
    refine ⟨attrs, url, _, rfl, u2, w2, ?_⟩
    intro k v
    rw [ha]
    refine or_congr Iff.rfl ?_
    constructor
    · rintro ⟨hm, hv⟩
      by_cases hc : k = "class".toList
      · subst hc; exact Or.inl ⟨rfl, hv⟩
      · rw [w3 k hc] at hv
        refine Or.inr ⟨?_, hv⟩
        simp only [List.mem_cons, List.not_mem_nil, or_false] at hm ⊢
        rcases hm with h | h | h
        · exact Or.inl h
        · exact absurd h hc
        · exact Or.inr h
    · rintro (⟨rfl, hv⟩ | ⟨hm, hv⟩)
      · exact ⟨by decide, hv⟩
      · have hc : k ≠ "class".toList := by rintro rfl; simp at hm
        rw [w3 k hc]
        refine ⟨?_, hv⟩
        simp only [List.mem_cons, List.not_mem_nil, or_false] at hm ⊢
        rcases hm with h | h
        · exact Or.inl h
        · exact Or.inr (Or.inr h)

/-- **C63**. An image has html unless its width is infinite or its alternate text, class or style is a positional
attribute. -/
theorem C63_html_renders (parse parsePct : Str → Option PyFloat) (cwd : List Str) (hcwd : ∀ c ∈ cwd, IsName c)
    (page file : TargetPath) (hp : GoodPy (.target page)) (hf : GoodPy (.target file)) (hname : page.sub.parts ≠ [])
    (ctx : Ctx) (hrel : ctx.relative ≠ some false) (files : Files) (hdoc : ctx.document = some files)
    (t : Str) (ht : t ∈ ["html".toList, "xhtml".toList]) (hpage : files ('.' :: t) = .ok (some page)) (d : ADict)
    (hw : ∀ w, valueFor d t "width".toList = some (.str w) → ¬ Suffixed trackedTargets w) :
    (∃ h, imgHtml parse parsePct cwd ctx d ('.' :: t) file = .ok h) ↔
      (∀ w, valueFor d t "width".toList = some (.str w) → percentage parse parsePct (.str w) ≠ none) ∧
      ∀ k ∈ ["alt".toList, "class".toList, "style".toList], ∀ u, d.get? k ≠ some (.pos u) := by
  obtain ⟨url, u1, u2⟩ := url_leads cwd hcwd page file hp hf hname ctx hrel files hdoc t
    (by
      simp only [List.mem_cons, List.not_mem_nil, or_false] at ht
      rcases ht with rfl | rfl <;> decide) hpage
  unfold imgHtml
  simp only [u1]
  obtain ⟨w1, w4⟩ := width_html parse parsePct d t ht hw
  cases hd : xhtmlPercentwidth parse parsePct trackedTargets d ('.' :: t) with
  | none =>
    refine iff_of_false (by simp) ?_
    rintro ⟨h1, h2⟩
    obtain ⟨w, hv, hn | ⟨r, c, u, _, _, hu⟩⟩ := w4.1 hd
    · exact h1 w hv hn
    · exact h2 _ (by decide) u hu
  | some d' =>
    obtain ⟨w2, w3⟩ := w1 d' hd
    simp only
    rw [img_exists]
    have hp : ∀ w, valueFor d t "width".toList = some (.str w) → percentage parse parsePct (.str w) ≠ none := by
      intro w hv hn
      have := w4.2 ⟨w, hv, Or.inl hn⟩
      rw [hd] at this
      simp at this
    have hcls : (∀ u, d'.get? "class".toList ≠ some (.pos u)) ↔ ∀ u, d.get? "class".toList ≠ some (.pos u) := by
      generalize valueFor d t "width".toList = w' at w2
      generalize d'.get? "class".toList = c' at w2
      generalize d.get? "class".toList = c at w2
      cases w2 <;> simp
    have hk : ∀ k, (∀ u, d'.get? k ≠ some (.pos u)) ↔ ∀ u, d.get? k ≠ some (.pos u) := by
      intro k
      by_cases hc : k = "class".toList
      · rw [hc]; exact hcls
      · rw [w3 k hc]
    constructor
    · intro h
      exact ⟨hp, fun k hm => (hk k).1 (h k hm)⟩
    · rintro ⟨_, h⟩ k hm
      exact (hk k).2 (h k hm)

/-- **C63**. In html an equation is the image of its file with the class `eq`, and `blockeq` for a block. -/
theorem C63_equation_html (parse parsePct : Str → Option PyFloat) (cwd : List Str) (hcwd : ∀ c ∈ cwd, IsName c)
    (page file : TargetPath) (hp : GoodPy (.target page)) (hf : GoodPy (.target file)) (hname : page.sub.parts ≠ [])
    (ctx : Ctx) (hrel : ctx.relative ≠ some false) (files : Files) (hdoc : ctx.document = some files)
    (t : Str) (ht : t ∈ ["html".toList, "xhtml".toList]) (hpage : files ('.' :: t) = .ok (some page)) (block : Bool) (d : ADict)
    (hw : ∀ w, valueFor d t "width".toList = some (.str w) → ¬ Suffixed trackedTargets w) (h : Html)
    (hh : eqHtml parse parsePct cwd ctx block d ('.' :: t) file = .ok h) :
    ∃ attrs url own cls, h = .elem "img".toList attrs [] ∧ Leads cwd page url file ∧
      (block = true ∨ "env".toList ∈ d.keys → own = "eq blockeq".toList) ∧
      (block = false → "env".toList ∉ d.keys → own = "eq".toList) ∧
      ImgClass parse parsePct (valueFor d t "width".toList) (some (.str own)) cls ∧
      ∀ k v, attrs.get? k = some v ↔ k = "src".toList ∧ v = url ∨ k = "class".toList ∧ cls = some (.str v) ∨
        k ∈ ["alt".toList, "style".toList] ∧ d.get? k = some (.str v) := by
  unfold eqHtml at hh
  generalize ho : (if (block || d.has "env".toList) = true then "eq blockeq".toList else "eq".toList) = own at hh
  have hv : valueFor (d.set "class".toList (.str own)) t "width".toList = valueFor d t "width".toList := by
    unfold valueFor
    have h1 : ¬ "class".toList = "width".toList := by decide
    have h2 : ¬ "class".toList = "width".toList ++ '.' :: t := by
      simp only [List.mem_cons, List.not_mem_nil, or_false] at ht
      rcases ht with rfl | rfl <;> decide
    rw [Dict.get?_set, Dict.get?_set, if_neg h1, if_neg h2]
  obtain ⟨attrs, url, cls, h1, h2, h3, h4⟩ := C63_image_html parse parsePct cwd hcwd page file hp hf hname ctx hrel files hdoc t
    ht hpage _ (by rw [hv]; exact hw) h hh
  rw [hv, Dict.get?_set_self] at h3
  refine ⟨attrs, url, own, cls, h1, h2, ?_, ?_, h3, ?_⟩
  · intro hb
    rw [← ho, if_pos]
    rcases hb with hb | hb
    · rw [hb]; rfl
    · have : d.has "env".toList = true := (Dict.has_iff _ _).2 hb
      rw [this, Bool.or_true]
  · intro hb he
    have : d.has "env".toList = false := by
      cases hh : d.has "env".toList with
      | false => rfl
      | true => exact absurd ((Dict.has_iff _ _).1 hh) he
    rw [← ho, hb, this, if_neg (by decide)]
  · intro k v
    rw [h4]
    refine or_congr Iff.rfl (or_congr Iff.rfl (and_congr_right fun hm => ?_))
    rw [Dict.get?_set, if_neg]
    rintro rfl
    simp at hm

/-! ### In trees -/

theorem html_sound (parse parsePct : Str → Option PyFloat) (cwd : List Str) (ctx : Links.Ctx) (d : ADict) (target : Str)
    (file : TargetPath) (h : Html) (hh : imgHtml parse parsePct cwd ctx d target file = .ok h) :
    htmlTexts h = [] ∧ AllAllowed h := by
  unfold imgHtml at hh
  cases hu : getUrl cwd file (some ctx) (some target) with
  | error e => rw [hu] at hh; simp at hh
  | ok url =>
    simp only [hu] at hh
    cases hd : xhtmlPercentwidth parse parsePct trackedTargets d target with
    | none => rw [hd] at hh; simp at hh
    | some d' =>
      simp only [hd] at hh
      obtain ⟨attrs, rfl, ha⟩ := img_element d' url h hh
      exact img_sound attrs url d' ha

/-- **C63**. Images and equations can be anywhere in a tree: what C52 and C53 ask of tags holds for them. -/
theorem C63_in_trees (parse parsePct : Str → Option PyFloat) (cwd : List Str) (ctx : Links.Ctx) (d : ADict) (target : Str)
    (clsStr : PType → Str) (texFile htmlFile : Option TargetPath) (load : Str → ADict) (block : Bool) (name : Str) (content : Node) :
    Sayable (imgNode parse parsePct clsStr cwd ctx d target texFile htmlFile) ∧
    Sound (imgNode parse parsePct clsStr cwd ctx d target texFile htmlFile) ∧
    Sound (eqNode load parse parsePct cwd ctx block name d content target htmlFile) ∧
    (Sayable (eqNode load parse parsePct cwd ctx block name d content target htmlFile) ↔ Sayable content) := by
  refine ⟨?_, ?_, ?_, by simp [eqNode, Sayable]⟩
  · intro m x _
    exact InOrder.nil x
  · intro h hh
    cases htmlFile with
    | none => simp at hh
    | some f =>
      obtain ⟨h1, h2⟩ := html_sound parse parsePct cwd ctx d target f h hh
      exact ⟨by rw [h1], h2⟩
  · intro h hh
    cases htmlFile with
    | none => simp at hh
    | some f => exact html_sound parse parsePct cwd ctx _ target f h hh

/-- **C63**. An image in a tree is rendered as on its own, and an equation is its image in html. -/
theorem C63_placed (parse parsePct : Str → Option PyFloat) (cwd : List Str) (ctx : Links.Ctx) (d : ADict) (target : Str)
    (clsStr : PType → Str) (f : TargetPath) (load : Str → ADict) (block : Bool) (name : Str) (content : Node)
    (other : Option TargetPath) (sp : Char → Bool) (lower : Str → Str) (math : Bool) (out : Str) (h : Html) :
    (texFmt sp math (imgNode parse parsePct clsStr cwd ctx d target (some f) other) = .ok out ↔
      imgTex parse parsePct clsStr d f = .ok out) ∧
    (htmlFmt sp lower (imgNode parse parsePct clsStr cwd ctx d target other (some f)) = .ok [.elem (some h)] ↔
      imgHtml parse parsePct cwd ctx d target f = .ok h) ∧
    (htmlFmt sp lower (eqNode load parse parsePct cwd ctx block name d content target (some f)) = .ok [.elem (some h)] ↔
      eqHtml parse parsePct cwd ctx block d target f = .ok h) := by
  refine ⟨?_, ?_, ?_⟩
  · simp [imgNode, texFmt]
  · simp only [imgNode, htmlFmt]
    cases imgHtml parse parsePct cwd ctx d target f <;> simp [Except.map]
  · simp only [eqNode, htmlFmt]
    cases eqHtml parse parsePct cwd ctx block d target f <;> simp [Except.map]

def figure1 : TargetPath := ⟨⟨true, ["p".toList]⟩, ⟨false, ["html".toList]⟩, ⟨false, ["media".toList, "a.svg".toList]⟩⟩

example : imgHtml half half [] (ctx1 true) [("width".toList, .str "50%".toList), ("class".toList, .str "wide".toList)]
    ".html".toList figure1 =
    .ok (.elem "img".toList [("src".toList, "../media/a.svg".toList), ("class".toList, "wide w50".toList)] []) := by
  rfl

example : eqHtml half half [] (ctx1 true) true [("class".toList, .str "wide".toList)] ".html".toList figure1 =
    .ok (.elem "img".toList [("src".toList, "../media/a.svg".toList), ("class".toList, "eq blockeq".toList)] []) := by
  rfl

example : GoodPy (.target page1) ∧ page1.sub.parts ≠ [] ∧ (ctx1 true).relative ≠ some false ∧
    (filesOf page1) ('.' :: "html".toList) = .ok (some page1) := by
  refine ⟨⟨?_, ?_, ?_, rfl, rfl, Or.inr ⟨by decide, by decide⟩⟩, by decide, by decide, rfl⟩ <;> (unfold Good IsName; decide)

end Verif.Media
