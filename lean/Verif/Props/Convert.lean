import Verif.Spec.Convert
import Verif.Props.Command

/-!
# C98: the conversions of images
-/

namespace Verif.Convert

open Verif Verif.Command

/-! ### Lemmas -/

theorem getParameter_without (ps : List Param) (name : Str) : getParameter name ps = none ↔ Without ps name := by
  rw [getParameter_none]
  constructor
  · intro h v hv
    cases hg : getParameter name ps with
    | none =>
      have : ∀ ps : List Param, Param.pair name v ∈ ps → getParameter name ps ≠ none := by
        intro ps
        induction ps with
        | nil => intro h; cases h
        | cons p ps ih =>
          intro hm
          rcases List.mem_cons.mp hm with rfl | hm
          · simp [getParameter]
          · simp only [getParameter, List.filterMap_cons] at ih ⊢
            split
            · exact ih hm
            · simp
      exact this ps hv hg
    | some w => exact h w ((getParameter_iff name ps w).mp hg)
  · rintro h v ⟨a, b, rfl, _⟩
    exact h v (by simp)

theorem make_ok (c : Cfg) (t : Tool) (ps : List Param) (out : Paths.Path) (l : List Step) :
    make c t ps = .ok l ↔ ∃ b, Command.new c t ps out = .ok b ∧ l = [.run t b.options] := by
  simp only [make, Command.new]
  cases options c t (Lists.uniq id ps) with
  | error e => exact ⟨nofun, nofun⟩
  | ok o =>
    constructor
    · intro h; cases h; exact ⟨_, rfl, rfl⟩
    · rintro ⟨b, hb, rfl⟩; cases hb; rfl

theorem both_ok (a b : Except Err (List Step)) (l : List Step) :
    both a b = .ok l ↔ ∃ x y, a = .ok x ∧ b = .ok y ∧ l = x ++ y := by
  cases a with
  | error e => exact ⟨nofun, nofun⟩
  | ok x =>
    cases b with
    | error e => exact ⟨nofun, nofun⟩
    | ok y =>
      constructor
      · intro h; cases h; exact ⟨x, y, rfl, rfl, rfl⟩
      · rintro ⟨_, _, h1, h2, rfl⟩; cases h1; cases h2; rfl

theorem closed_ok (a : Except Err (List Step)) (l : List Step) : closed a = .ok l ↔ ∃ x, a = .ok x ∧ l = x ++ [.copy] := by
  rw [closed, both_ok]
  constructor
  · rintro ⟨x, y, h, e, rfl⟩; cases e; exact ⟨x, h, rfl⟩
  · rintro ⟨x, h, rfl⟩; exact ⟨x, _, h, rfl, rfl⟩

theorem crop_ok (c : Cfg) (ps : List Param) (l : List Step) :
    makeIf c .pdfcrop ps (match getParameter "crop".toList ps with
      | some v => some v
      | none => getParameter "crop_percentage".toList ps) = .ok l ↔ CropSteps c ps l := by
  have out : Paths.Path := ⟨false, []⟩
  constructor
  · intro h
    split at h
    · rename_i v hv
      obtain ⟨b, hb, rfl⟩ := (make_ok c .pdfcrop ps out l).mp h
      exact .crop out b (fun hw => by rw [(getParameter_without ps _).mpr hw.1] at hv; cases hv) hb
    · rename_i hv
      cases hp : getParameter "crop_percentage".toList ps with
      | none =>
        rw [hp] at h
        cases h
        exact .none ((getParameter_without ps _).mp hv) ((getParameter_without ps _).mp hp)
      | some w =>
        rw [hp] at h
        obtain ⟨b, hb, rfl⟩ := (make_ok c .pdfcrop ps out l).mp h
        exact .crop out b (fun hw => by rw [(getParameter_without ps _).mpr hw.2] at hp; cases hp) hb
  · intro h
    cases h with
    | none h1 h2 => rw [(getParameter_without ps _).mpr h1, (getParameter_without ps _).mpr h2]; rfl
    | crop out b hn hb =>
      have := (make_ok c .pdfcrop ps out _).mpr ⟨b, hb, rfl⟩
      cases h1 : getParameter "crop".toList ps with
      | some v => exact this
      | none =>
        cases h2 : getParameter "crop_percentage".toList ps with
        | some v => exact this
        | none => exact absurd ⟨(getParameter_without ps _).mp h1, (getParameter_without ps _).mp h2⟩ hn

theorem scale_ok (c : Cfg) (ps : List Param) (l : List Step) :
    makeIf c .scalesvg ps (getParameter "scale".toList ps) = .ok l ↔ ScaleSteps c ps l := by
  have out : Paths.Path := ⟨false, []⟩
  obtain ⟨k1, k2⟩ := C76_scale c ps out
  constructor
  · intro h
    cases hg : getParameter "scale".toList ps with
    | none => rw [hg] at h; cases h; exact .none ((getParameter_without ps _).mp hg)
    | some v =>
      rw [hg] at h
      obtain ⟨b, hb, rfl⟩ := (make_ok c .scalesvg ps out l).mp h
      by_cases he : ∃ v t, Spec.First ps "scale".toList v ∧ Spec.Number c v t
      · obtain ⟨v, t, hv, ht⟩ := he
        obtain ⟨b', hb', ho⟩ := k1 v t hv ht
        rw [hb] at hb'
        cases hb'
        rw [ho]
        exact .scale v t hv ht
      · rw [k2 he] at hb; cases hb
  · intro h
    cases h with
    | none h => rw [(getParameter_without ps _).mpr h]; rfl
    | scale v t hv ht =>
      obtain ⟨b, hb, ho⟩ := k1 v t hv ht
      rw [(getParameter_iff _ ps v).mpr hv]
      exact (make_ok c .scalesvg ps out _).mpr ⟨b, hb, by rw [ho]⟩

/-! ### The theorems -/

/-- C98. A pdf file is cropped exactly if there is a crop, then made a svg file, and then scaled exactly if there is a scale. It is an
exception exactly if there are no parameters, the crop is not valid or the scale is not a number. -/
theorem C98_pdf (c : Cfg) (ps : List Param) (l : List Step) :
    pdfToSvg c ps = .ok l ↔ ps ≠ [] ∧ ∃ a b, CropSteps c ps a ∧ ScaleSteps c ps b ∧ l = a ++ [.run .pdf2svg {}] ++ b ++ [.copy] := by
  by_cases hp : ps = []
  · simp only [pdfToSvg, hp, if_pos]
    exact ⟨nofun, fun h => absurd rfl h.1⟩
  · simp only [pdfToSvg, if_neg hp]
    rw [closed_ok]
    constructor
    · rintro ⟨x, h, rfl⟩
      obtain ⟨a, y, ha, hy, rfl⟩ := (both_ok _ _ _).mp h
      obtain ⟨m, b, hm, hb, rfl⟩ := (both_ok _ _ _).mp hy
      have : m = [.run .pdf2svg {}] := (Except.ok.inj hm).symm
      subst this
      exact ⟨hp, a, b, (crop_ok c ps a).mp ha, (scale_ok c ps b).mp hb, by simp⟩
    · rintro ⟨_, a, b, ha, hb, rfl⟩
      refine ⟨a ++ ([.run .pdf2svg {}] ++ b), (both_ok _ _ _).mpr ⟨a, _, (crop_ok c ps a).mpr ha, (both_ok _ _ _).mpr
        ⟨[.run .pdf2svg {}], b, rfl, (scale_ok c ps b).mpr hb, rfl⟩, rfl⟩, by simp⟩

/-- C98. The programs for each kind of image: asymptote images are made pdf files first, and then cropped, made svg files and scaled as
these are; equations and other rendered images are made pdf files by the program for latex. Texts are saved and templates rendered
before, and each conversion ends with a copy to the place of its output. -/
theorem C98_programs (c : Cfg) (latex : Tool) (hl : latex = .latexmk ∨ latex = .pdflatex) (ps : List Param) (hp : ps ≠ []) (a b : List Step)
    (ha : CropSteps c ps a) (hb : ScaleSteps c ps b) :
    (∃ l, pdfToSvg c ps = .ok l ∧ programs l = programs a ++ [(.pdf2svg, noOptions)] ++ programs b ∧ l.getLast? = some .copy) ∧
    (∃ l, asyToSvg c ps = .ok l ∧ programs l = [(.asy, noOptions)] ++ programs a ++ [(.pdf2svg, noOptions)] ++ programs b ∧ l.getLast? = some .copy) ∧
    (∃ l, saveAsySvg c ps = .ok l ∧ programs l = [(.asy, noOptions)] ++ programs a ++ [(.pdf2svg, noOptions)] ++ programs b ∧ l.getLast? = some .copy ∧
      l.head? = some .save) ∧
    (∃ l, saveAsyPdf c ps = .ok l ∧ programs l = [(.asy, noOptions)] ∧ l.getLast? = some .copy ∧ l.head? = some .save) ∧
    (∃ l, svgRender c latex ps = .ok l ∧ programs l = [(latex, noOptions)] ++ programs a ++ [(.pdf2svg, noOptions)] ++ programs b ∧
      l.getLast? = some .copy ∧ l.head? = some .render) := by
  have hpdf := (C98_pdf c ps _).mpr ⟨hp, a, b, ha, hb, rfl⟩
  have happ : ∀ x y : List Step, programs (x ++ y) = programs x ++ programs y := fun x y => List.filterMap_append
  have hasy : make c .asy ps = .ok [.run .asy {}] := rfl
  have hlat : make c latex [] = .ok [.run latex {}] := by rcases hl with rfl | rfl <;> rfl
  have h1 : ∀ t o, programs [Step.run t o] = [(t, o)] := fun _ _ => rfl
  have h2 : programs [Step.copy] = [] := rfl
  have h3 : programs [Step.save] = [] := rfl
  have h4 : programs [Step.render] = [] := rfl
  have hboth : ∀ x y : List Step, both (.ok x) (.ok y) = .ok (x ++ y) := fun _ _ => rfl
  have hcl : ∀ x : List Step, closed (.ok x) = .ok (x ++ [.copy]) := fun _ => rfl
  have r2 := hcl ([.run .asy {}] ++ (a ++ [.run .pdf2svg {}] ++ b ++ [.copy]))
  rw [← hboth, ← hpdf, ← hasy, ← asyToSvg] at r2
  have r3 := hcl ([.save] ++ ([.run .asy {}] ++ (a ++ [.run .pdf2svg {}] ++ b ++ [.copy]) ++ [.copy]))
  rw [← hboth, ← r2, ← saveAsySvg] at r3
  have r4 := hcl ([.save] ++ [.run .asy {}])
  rw [← hboth, ← hasy, ← saveAsyPdf] at r4
  have r5 := hcl ([.render] ++ [.run latex {}] ++ [.copy] ++ (a ++ [.run .pdf2svg {}] ++ b ++ [.copy]))
  rw [← hboth, ← hcl, ← hboth, ← hlat, ← hpdf, ← svgRender] at r5
  refine ⟨⟨_, hpdf, ?_, List.getLast?_concat ..⟩, ⟨_, r2, ?_, List.getLast?_concat ..⟩, ⟨_, r3, ?_, List.getLast?_concat .., by simp⟩, ⟨_, r4, rfl, rfl, rfl⟩, ⟨_, r5, ?_, List.getLast?_concat .., by simp⟩⟩ <;>
    simp only [happ, h1, h2, h3, h4, List.append_nil, List.nil_append, List.append_assoc]

/-- Finding: the page of a pdf file cannot be chosen. The conversion is the same for all pages. -/
theorem C98_page_refuted (c : Cfg) (ps : List Param) (hp : ps ≠ []) (v : Value) (name : Str) (hn : name = "page".toList ∨ name = "page_no".toList) :
    pdfToSvg c (ps ++ [.pair name v]) = pdfToSvg c ps := by
  have hg : ∀ m, m ≠ name → getParameter m (ps ++ [.pair name v]) = getParameter m ps := by
    intro m hm
    simp [getParameter, Ne.symm hm]
  have n1 : "crop".toList ≠ name ∧ "crop_percentage".toList ≠ name ∧ "scale".toList ≠ name ∧ "offset".toList ≠ name := by
    rcases hn with rfl | rfl <;> decide
  have e1 : options c .pdfcrop (Lists.uniq id (ps ++ [.pair name v])) = options c .pdfcrop (Lists.uniq id ps) := by
    simp only [options, cropOptions, getParameter_uniq, hg _ n1.1, hg _ n1.2.1, hg _ n1.2.2.2]
  have e2 : options c .scalesvg (Lists.uniq id (ps ++ [.pair name v])) = options c .scalesvg (Lists.uniq id ps) := by
    simp only [options, scaleOptions, getParameter_uniq, hg _ n1.2.2.1]
  have hm1 : make c .pdfcrop (ps ++ [.pair name v]) = make c .pdfcrop ps := by simp only [make, e1]
  have hm2 : make c .scalesvg (ps ++ [.pair name v]) = make c .scalesvg ps := by simp only [make, e2]
  simp only [pdfToSvg, hg _ n1.1, hg _ n1.2.1, hg _ n1.2.2.1, makeIf, hm1, hm2, if_neg hp]
  rw [if_neg (by simp)]

/-! ### Examples -/

def exCfg : Cfg := ⟨id, fun ch => ch = ' ', fun _ => none, fun _ => 0, fun s => if s = "2".toList then some "2.0".toList else none, fun _ => []⟩

def exParams : List Param := [.file (Paths.parse "/p/a.pdf".toList), .pair "crop".toList (.tuple [1, 2, 3, 4]), .pair "scale".toList (.str "2".toList)]

example : CropSteps exCfg exParams [.run .pdfcrop { crop := .four [1, 2, 3, 4] }] :=
  (crop_ok exCfg exParams _).mp rfl

example : ScaleSteps exCfg exParams [.run .scalesvg { scale := "2.0".toList }] :=
  (scale_ok exCfg exParams _).mp rfl

example : CropSteps exCfg [.file (Paths.parse "/p/a.pdf".toList)] [] ∧ ScaleSteps exCfg [.file (Paths.parse "/p/a.pdf".toList)] [] :=
  ⟨(crop_ok exCfg _ _).mp rfl, (scale_ok exCfg _ _).mp rfl⟩

/-- A scale that is not a number. -/
example : pdfToSvg exCfg [.file (Paths.parse "/p/a.pdf".toList), .pair "scale".toList (.str "big".toList)] = .error .valueError := rfl

/-- A scale without a crop. -/
example : pdfToSvg exCfg [.file (Paths.parse "/p/a.pdf".toList), .pair "scale".toList (.str "2".toList)] =
    .ok [.run .pdf2svg {}, .run .scalesvg { scale := "2.0".toList }, .copy] := rfl

end Verif.Convert
