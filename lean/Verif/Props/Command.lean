import Verif.Lemmas.Command
import Verif.Lemmas.Paths

/-!
# C76: the commands of builders

The statements use `Spec.command`, the command that a builder should run, and `Spec.files`, the files among its parameters.
-/

namespace Verif.Command

open Verif Verif.Paths

theorem runCmd_shape (c : Cfg) (hs : Spec.Spaces c.sp) (b : Builder) (ht : Tidy c b) (hp : b.options.page = none ∨ b.tool ≠ .pdf2svg) :
    b.runCmd c = .ok (match b.tool with
      | .pdfcrop => (shape c b).take 1 ++ Spec.cropped b.options ++ (shape c b).drop 1
      | .scalesvg => (shape c b).take 1 ++ ["-z".toList, b.options.scale] ++ (shape c b).drop 1
      | _ => shape c b) := by
  obtain ⟨t, ps, out, o⟩ := b
  rw [Builder.runCmd, Builder.runCmdArgs, base_shape c hs _ ht]
  cases t with
  | pdfcrop =>
    obtain ⟨cr, of, pg, sc⟩ := o
    simp only [shape, List.cons_append, List.nil_append]
    rw [texts_map]
    have e : Validators.showInt = fun n => (toString n).toList := rfl
    cases cr <;> cases of <;> simp only [Validators.cropArgs, Spec.cropped, e] <;> simp
  | pdf2svg =>
    have hp : o.page = none := by rcases hp with h | h; exact h; exact absurd rfl h
    simp only [hp, texts_map]
  | scalesvg =>
    simp only [shape, List.cons_append, List.nil_append]
    rw [texts_map]; simp
  | asy => simp only [texts_map]
  | latexmk => simp only [texts_map]
  | pdflatex => simp only [texts_map]
  | convert => simp only [texts_map]

/-- A builder runs its program with the options that its parameters ask for, the output file and each of its input files, each as one
argument and in order, if the names are plain: without spaces and not beginning or ending with `-`, `*` or `` ` ``. Braces and all other
characters in names do no harm. -/
theorem C76_command_partial (c : Cfg) (hs : Spec.Spaces c.sp) (t : Tool) (ps : List Param) (out : Path) (b : Builder)
    (h : new c t ps out = .ok b) (hpage : b.options.page = none) (hn : Spec.Named c t (Spec.files ps) out) :
    b.runCmd c = .ok (Spec.command t b.options ((Spec.files ps).map toStr) (toStr out) (toStr (parent out)) (stem out)) := by
  obtain ⟨rfl, rfl, hf⟩ := new_ok c t ps out b h
  have hi : b.infilepaths.flatMap (words c) = (Spec.files ps).map toStr := by rw [hf, flatMap_words c _ hn.1]
  have ht : Tidy c b := by
    rintro (h | h) <;>
    · have := hn.2
      rw [h] at this
      simp only at this
      rw [trim_plain c _ this.2, cleanPath_plain c _ this.1]
      exact ⟨this.2.noSpace, this.1.plain.noSpace⟩
  rw [runCmd_shape c hs b ht (.inl hpage)]
  obtain ⟨t, ps', out, o⟩ := b
  have h2 := hn.2
  cases t <;> simp only at h2 <;> simp only [shape, Spec.command] <;> rw [hi]
  all_goals first
    | (rw [words_plain c _ h2]; done)
    | (rw [words_plain c _ h2]; simp; done)
    | (rw [trim_plain c _ h2.2, cleanPath_plain c _ h2.1])

/-- No name of a file turns into an option: if the names have no spaces, then each argument that begins with `-` is one of the command
without files. -/
theorem C76_no_options_partial (c : Cfg) (hs : Spec.Spaces c.sp) (t : Tool) (ps : List Param) (out : Path) (b : Builder)
    (h : new c t ps out = .ok b) (hn : Spec.NoSpaces c t (Spec.files ps) out) (args : List Str) (hr : b.runCmd c = .ok args)
    (a : Str) (ha : a ∈ args) (hd : a.head? = some '-') : ∃ dir job, a ∈ Spec.command t b.options [] [] dir job := by
  obtain ⟨rfl, rfl, hf⟩ := new_ok c t ps out b h
  have key : ∀ p : Path, (∀ ch ∈ c.sanitize (toStr p), c.sp ch = false) → a ∉ words c p := by
    intro p hp hm
    rw [words, splitWords_word c.sp (cleanPath c p) [] (fun ch hc => hp ch (mem_trim _ _ hc))] at hm
    by_cases e : [] ++ cleanPath c p = []
    · rw [if_pos e] at hm; cases hm
    · rw [if_neg e, List.mem_singleton] at hm
      rw [hm] at hd
      exact trim_head _ hd
  have hin : a ∉ b.infilepaths.flatMap (words c) := by
    rw [hf, List.mem_flatMap]
    rintro ⟨p, hp, hm⟩
    exact key p (hn.1 p hp) hm
  have ht : Tidy c b := by
    rintro (h | h) <;>
    · have := hn.2
      rw [h] at this
      exact ⟨fun ch hc => this.2 ch (mem_trim _ _ hc), fun ch hc => this.1 ch (mem_trim _ _ hc)⟩
  have hp : b.options.page = none ∨ b.tool ≠ .pdf2svg := by
    by_cases hb : b.tool = .pdf2svg
    · left
      cases hg : b.options.page with
      | none => rfl
      | some n =>
        rw [Builder.runCmd, Builder.runCmdArgs, base_shape c hs _ ht] at hr
        simp only [hb, hg, texts_int] at hr
        cases hr
    · exact .inr hb
  rw [runCmd_shape c hs b ht hp] at hr
  obtain ⟨t, ps', out, o⟩ := b
  have h2 := hn.2
  simp only [Except.ok.injEq] at hr
  subst hr
  refine ⟨cleanPath c (parent out), trim (stem out), ?_⟩
  cases t <;> simp only at h2 <;> simp only [shape, Spec.command] at ha ⊢
  · have := key out h2
    simp only [List.mem_append, List.mem_cons, List.not_mem_nil, or_false, List.take, List.drop, List.cons_append, List.nil_append] at ha ⊢
    simp only [hin, this, or_false, false_or] at ha
    rcases ha with ha | ha | ha <;> simp [ha]
  · have := key out h2
    simp only [List.mem_append, List.mem_cons, List.not_mem_nil, or_false] at ha ⊢
    simp only [hin, this, or_false] at ha
    simp [ha]
  · have := key out h2
    simp only [List.mem_append, List.mem_cons, List.not_mem_nil, or_false] at ha ⊢
    simp only [hin, this, or_false] at ha
    rcases ha with ha | ha | ha | ha | ha <;> simp [ha]
  · have := key out h2
    simp only [List.mem_append, List.mem_cons, List.not_mem_nil, or_false, List.take, List.drop, List.cons_append, List.nil_append] at ha ⊢
    simp only [hin, this, or_false, false_or] at ha
    rcases ha with ha | ha | ha | ha | ha | ha <;> simp [ha]
  · simp only [List.mem_append, hin, or_false] at ha
    simpa using ha
  · simp only [List.mem_append, hin, or_false] at ha
    simpa using ha
  · have := key out h2
    simp only [List.mem_append, List.mem_cons, List.not_mem_nil, or_false] at ha ⊢
    simp only [hin, this, or_false] at ha
    simp [ha]

/-- The command of a builder of latex writes the output file: `pdflatex` makes the file `<jobname>.pdf` in its output directory. -/
theorem C76_latex_output (out : Path) (h : suffix out = ".pdf".toList) :
    div (parent out) ⟨false, [stem out ++ ".pdf".toList]⟩ = out := by
  obtain ⟨ab, parts⟩ := out
  have hp : parts ≠ [] := by rintro rfl; simp [suffix, name, lastDot] at h
  have hn : stem ⟨ab, parts⟩ ++ ".pdf".toList = name ⟨ab, parts⟩ := by
    rw [← h]
    unfold suffix at h
    cases hl : lastDot (name ⟨ab, parts⟩) with
    | none => rw [hl] at h; simp at h
    | some p =>
      obtain ⟨x, y⟩ := p
      rw [hl] at h
      simp only at h
      by_cases hxy : x ≠ [] ∧ y ≠ []
      · simp only [stem, suffix, hl, if_pos hxy]
        exact ((lastDot_some _ x y).1 hl).1.symm
      · rw [if_neg hxy] at h; simp at h
  rw [hn, div, if_neg (by simp)]
  simp only [parent, name, Path.mk.injEq, true_and]
  rw [List.getLast?_eq_some_getLast hp]
  exact List.dropLast_concat_getLast hp

/-- The scale of an image is that of the first parameter named 'scale', as a float, and without such a number there is no builder. -/
theorem C76_scale (c : Cfg) (ps : List Param) (out : Path) :
    (∀ v t, Spec.First ps "scale".toList v → Spec.Number c v t →
      ∃ b, new c .scalesvg ps out = .ok b ∧ b.options = { scale := t }) ∧
    ((¬ ∃ v t, Spec.First ps "scale".toList v ∧ Spec.Number c v t) → new c .scalesvg ps out = .error .valueError) := by
  have e : options c .scalesvg (Lists.uniq id ps) = scaleOptions c ps := by
    simp only [options, scaleOptions, getParameter_uniq]
  constructor
  · intro v t hf hn
    refine ⟨⟨.scalesvg, Lists.uniq id ps, out, { scale := t }⟩, ?_, rfl⟩
    rw [new, e, scaleOptions, (getParameter_iff _ ps v).2 hf]
    cases hn with
    | int n => rfl
    | float s => rfl
    | str s t h => simp only [h]
  · intro hn
    rw [new, e, scaleOptions]
    cases hg : getParameter "scale".toList ps with
    | none => rfl
    | some v =>
      have hf := (getParameter_iff _ ps v).1 hg
      cases v with
      | int n => exact absurd ⟨_, _, hf, .int n⟩ hn
      | float s => exact absurd ⟨_, _, hf, .float s⟩ hn
      | str s =>
        cases hs : c.floatOf s with
        | none => simp only [hs]
        | some t => exact absurd ⟨_, _, hf, .str s t hs⟩ hn
      | tuple l => rfl
      | other => rfl

theorem setting_sides {v : Value} {s : Validators.Setting} (h : Spec.Sides v s) :
    v.setting.truthy = true ∧ Validators.setting (some v.setting) = .ok s := by
  cases h with
  | one n h0 => simp [Value.setting, Validators.Param.truthy, Validators.setting, h0]
  | four l hl =>
    have hne : l ≠ [] := by rintro rfl; simp at hl
    have e : Validators.convert (fun a => (.ok a : Except Validators.Err Int)) l = .ok l := by
      clear hl hne
      induction l with
      | nil => rfl
      | cons a l ih => simp only [Validators.convert, ih]
    simp only [Value.setting, Validators.Param.truthy, Validators.setting, Validators.validateTuple]
    rw [if_pos (by simp [hne]), if_neg (by simp [hl]), e]
    simp [hne]

/-- The crop is that of the first parameter named 'crop', or else of the first one named 'crop_percentage', and the offset that of the first
one named 'offset'. -/
theorem C76_crop (c : Cfg) (ps : List Param) (out : Path) (v : Value) (s o : Validators.Setting)
    (hc : Spec.First ps "crop".toList v ∨ (∀ w, ¬ Spec.First ps "crop".toList w) ∧ Spec.First ps "crop_percentage".toList v)
    (hv : Spec.Sides v s)
    (ho : (∀ w, ¬ Spec.First ps "offset".toList w) ∧ o = .unset ∨ ∃ w, Spec.First ps "offset".toList w ∧ Spec.Sides w o) :
    ∃ b, new c .pdfcrop ps out = .ok b ∧ b.options = { crop := s, offset := o } := by
  refine ⟨⟨.pdfcrop, Lists.uniq id ps, out, { crop := s, offset := o }⟩, ?_, rfl⟩
  obtain ⟨h1, h2⟩ := setting_sides hv
  have e1 : Validators.setting (Validators.orElse ((getParameter "crop".toList ps).map Value.setting)
      ((getParameter "crop_percentage".toList ps).map Value.setting)) = .ok s := by
    rcases hc with hc | ⟨hc, hc'⟩
    · rw [(getParameter_iff _ ps _).2 hc]
      simp only [Option.map_some, Validators.orElse]
      rw [if_pos h1, h2]
    · rw [(getParameter_none _ ps).2 hc, (getParameter_iff _ ps _).2 hc']
      exact h2
  have e2 : Validators.setting ((getParameter "offset".toList ps).map Value.setting) = .ok o := by
    rcases ho with ⟨ho, rfl⟩ | ⟨w, hw, hs⟩
    · rw [(getParameter_none _ ps).2 ho]; rfl
    · rw [(getParameter_iff _ ps _).2 hw]; exact (setting_sides hs).2
  simp only [new, options, cropOptions, getParameter_uniq, e1, e2]

/-- A single number as the offset is not passed on to the program. -/
theorem C76_offset_refuted : ∃ (n : Int) (c : Cfg) (p out : Path), n ≠ 0 ∧
    (∃ args, (∃ b, new c .pdfcrop [.file p] out = .ok b ∧ b.runCmd c = .ok args) ∧
      ∃ b, new c .pdfcrop [.file p, .pair "offset".toList (.int n)] out = .ok b ∧ b.runCmd c = .ok args) :=
  ⟨5, ⟨id, fun ch => ch = ' ', fun _ => none, fun _ => 0, fun _ => none, fun _ => []⟩, parse "/p/a.pdf".toList, parse "/p/b.pdf".toList,
    by decide, ["pdf-crop-margins".toList, "-o".toList, "/p/b.pdf".toList, "/p/a.pdf".toList],
    ⟨⟨.pdfcrop, [.file (parse "/p/a.pdf".toList)], parse "/p/b.pdf".toList, {}⟩, by rfl, by rfl⟩,
    ⟨⟨.pdfcrop, [.file (parse "/p/a.pdf".toList), .pair "offset".toList (.int 5)], parse "/p/b.pdf".toList, { offset := .one 5 }⟩, by rfl,
      by rfl⟩⟩

/-- A builder of an svg for a page of a pdf never runs: its arguments are not texts. -/
theorem C76_page_refuted (c : Cfg) (hs : Spec.Spaces c.sp) (ps : List Param) (out : Path) (n : Int) (h0 : n ≠ 0)
    (h : Spec.First ps "page".toList (.int n)) :
    ∃ b, new c .pdf2svg ps out = .ok b ∧ b.runCmd c = .error .typeError := by
  refine ⟨⟨.pdf2svg, Lists.uniq id ps, out, { page := some n }⟩, ?_, ?_⟩
  · rw [new, options, pageOptions, getParameter_uniq, getParameter_uniq, (getParameter_iff _ ps _).2 h]
    simp [Value.truthy, Value.setting, Validators.Param.truthy, h0]
  · rw [Builder.runCmd, Builder.runCmdArgs, base_shape c hs _ (by rintro (h | h) <;> cases h)]
    simp only [texts_int]

/-! ## Examples -/

/-- The library leaves these names as they are. -/
def plainCfg : Cfg where
  sanitize := id
  sp ch := ch = ' ' || ch = '\t' || ch = '\n'
  intOf _ := none
  trunc _ := 0
  floatOf _ := none
  floatInt n := (toString n).toList ++ ".0".toList

theorem plainCfg_spaces : Spec.Spaces plainCfg.sp where
  space := rfl
  visible := by
    intro ch h1 h2
    simp only [plainCfg, Bool.or_eq_false_iff, decide_eq_false_iff_not]
    refine ⟨⟨?_, ?_⟩, ?_⟩ <;> (rintro rfl; revert h1; decide)

def fig : Path := parse "/p/media/fig-{1}.pdf".toList
def cropOut : Path := parse "/p/.cache/fig-{1}_crop.pdf".toList

example : Spec.Named plainCfg .pdfcrop (Spec.files [.file fig, .pair "crop".toList (.int 20), .file fig]) cropOut := by
  have e : Spec.files [.file fig, .pair "crop".toList (.int 20), .file fig] = [fig] := by decide +kernel
  rw [e]
  refine ⟨?_, ⟨rfl, ⟨by decide +kernel, by decide +kernel, ?_, ?_⟩⟩⟩
  · intro p hp
    rw [List.mem_singleton] at hp
    subst hp
    refine ⟨rfl, ⟨by decide +kernel, by decide +kernel, ?_, ?_⟩⟩
    · intro ch h; rw [show (toStr fig).head? = some '/' by decide +kernel] at h; cases h; simp [Spec.Odd]
    · intro ch h; rw [show (toStr fig).getLast? = some 'f' by decide +kernel] at h; cases h; simp [Spec.Odd]
  · intro ch h; rw [show (toStr cropOut).head? = some '/' by decide +kernel] at h; cases h; simp [Spec.Odd]
  · intro ch h; rw [show (toStr cropOut).getLast? = some 'f' by decide +kernel] at h; cases h; simp [Spec.Odd]

/-- What a builder runs. -/
def ran (c : Cfg) (t : Tool) (ps : List Param) (out : Path) : Option (List Str) :=
  match new c t ps out with
  | .error _ => none
  | .ok b =>
    match b.runCmd c with
    | .error _ => none
    | .ok l => some l

example : ran plainCfg .pdfcrop [.file fig, .pair "crop".toList (.int 20), .file fig] cropOut =
    some ["pdf-crop-margins".toList, "-p".toList, "20".toList, "-o".toList, "/p/.cache/fig-{1}_crop.pdf".toList,
      "/p/media/fig-{1}.pdf".toList] := by decide +kernel

/-- A name with a space in it is two arguments, neither of them a file of the build. -/
theorem C76_spaces_refuted : ∃ (ps : List Param) (out : Path) (args : List Str), ran plainCfg .convert ps out = some args ∧
    Spec.files ps = [parse "/p/my figure.tif".toList] ∧ args.length = 4 ∧ "/p/my".toList ∈ args ∧ "/p/my figure.tif".toList ∉ args :=
  ⟨[.file (parse "/p/my figure.tif".toList)], parse "/p/fig.png".toList,
    ["convert".toList, "/p/my".toList, "figure.tif".toList, "/p/fig.png".toList], by decide +kernel, by decide +kernel, rfl,
    by decide +kernel, by decide +kernel⟩

/-- A name with a space in it can be an option of the program: here the input file names the output file. -/
theorem C76_no_options_refuted : ∃ (ps : List Param) (out : Path) (args : List Str), ran plainCfg .asy ps out = some args ∧
    Spec.files ps = [parse "/p/fig -o x.asy".toList] ∧
    args = ["asy".toList, "-safe".toList, "-f".toList, "pdf".toList, "-o".toList, "/p/fig.pdf".toList, "/p/fig".toList, "-o".toList,
      "x.asy".toList] :=
  ⟨[.file (parse "/p/fig -o x.asy".toList)], parse "/p/fig.pdf".toList, _, by decide +kernel, by decide +kernel, rfl⟩

/-- Documents of which the names differ in a last `-` get the same command, so that one of the two outputs is not made. -/
theorem C76_cut_refuted : ∃ (ps : List Param) (out out' : Path) (args : List Str), out ≠ out' ∧
    ran plainCfg .pdflatex ps out = some args ∧ ran plainCfg .pdflatex ps out' = some args :=
  ⟨[.file (parse "/p/notes.tex".toList)], parse "/p/.cache/notes.pdf".toList, parse "/p/.cache/notes-.pdf".toList,
    ["pdflatex".toList, "-interaction=nonstopmode".toList, "-halt-on-error".toList, "-output-directory=/p/.cache".toList,
      "-jobname=notes".toList, "/p/notes.tex".toList],
    by decide +kernel, by decide +kernel, by decide +kernel⟩

example : suffix (parse "/p/.cache/notes.pdf".toList) = ".pdf".toList := by decide +kernel

example : ∃ v t, Spec.First [.file fig, .pair "scale".toList (.int 2), .pair "scale".toList (.int 3)] "scale".toList v ∧ Spec.Number plainCfg v t :=
  ⟨.int 2, _, ⟨[.file fig], [.pair "scale".toList (.int 3)], rfl, by simp⟩, .int 2⟩

example : Spec.NoSpaces plainCfg .asy (Spec.files [.file (parse "-rf.asy".toList)]) (parse "out.pdf".toList) := by
  have e : Spec.files [.file (parse "-rf.asy".toList)] = [parse "-rf.asy".toList] := by decide +kernel
  rw [e]
  refine ⟨?_, by decide +kernel⟩
  intro p hp
  rw [List.mem_singleton] at hp
  subst hp
  decide +kernel

end Verif.Command
