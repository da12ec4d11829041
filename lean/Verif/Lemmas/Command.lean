import Verif.Spec.Command

/-! # Lemmas on the commands of builders -/

namespace Verif.Command

open Verif Verif.Paths Verif.Navigation

/-! ## Words -/

theorem splitWords_append (sp : Char → Bool) (a b cur : Str) (h : sp ' ' = true) :
    splitWords sp cur (a ++ ' ' :: b) = splitWords sp cur a ++ splitWords sp [] b := by
  induction a generalizing cur with
  | nil =>
    simp only [List.nil_append, splitWords, h, if_true]
    by_cases hc : cur = []
    · rw [if_pos hc, if_pos hc]; rfl
    · rw [if_neg hc, if_neg hc]; rfl
  | cons x a ih =>
    simp only [List.cons_append, splitWords]
    by_cases hx : sp x = true
    · rw [if_pos hx, if_pos hx]
      by_cases hc : cur = []
      · rw [if_pos hc, if_pos hc, ih]
      · rw [if_neg hc, if_neg hc, ih]; rfl
    · rw [if_neg hx, if_neg hx, ih]

theorem splitWords_word (sp : Char → Bool) (a cur : Str) (h : ∀ ch ∈ a, sp ch = false) :
    splitWords sp cur a = if cur ++ a = [] then [] else [cur ++ a] := by
  induction a generalizing cur with
  | nil => simp [splitWords]
  | cons x a ih =>
    rw [splitWords, if_neg (by simp [h x (by simp)]), ih _ (fun ch hc => h ch (by simp [hc]))]
    simp

theorem splitWords_one (sp : Char → Bool) (a : Str) (hn : a ≠ []) (h : ∀ ch ∈ a, sp ch = false) : splitWords sp [] a = [a] := by
  rw [splitWords_word sp a [] h]; simp [hn]

/-- A word without spaces and what follows it. -/
theorem splitWords_cons (sp : Char → Bool) (a b : Str) (hs : sp ' ' = true) (hn : a ≠ []) (h : ∀ ch ∈ a, sp ch = false) :
    splitWords sp [] (a ++ ' ' :: b) = a :: splitWords sp [] b := by
  rw [splitWords_append sp a b [] hs, splitWords_one sp a hn h]; rfl

theorem splitWords_join (sp : Char → Bool) (l : List Str) (h : sp ' ' = true) :
    splitWords sp [] (join " ".toList l) = l.flatMap (splitWords sp []) := by
  induction l with
  | nil => simp [join, splitWords]
  | cons a l ih =>
    by_cases hl : l = []
    · subst hl; simp [join]
    · rw [show join " ".toList (a :: l) = a ++ ' ' :: join " ".toList l by
        cases l with
        | nil => exact absurd rfl hl
        | cons b l => simp [join]]
      rw [splitWords_append sp a _ [] h, ih]; simp

/-! ## Formats -/

/-- A part of an action. -/
inductive Piece
  | lit (s : Str)
  | fld (n : Str)

def Piece.text : Piece → Str
  | .lit s => s
  | .fld n => '{' :: (n ++ ['}'])

def Piece.Good : Piece → Prop
  | .lit s => ∀ ch ∈ s, ch ≠ '{' ∧ ch ≠ '}'
  | .fld n => ∀ ch ∈ n, ch ≠ '{' ∧ ch ≠ '}'

def Piece.value (val : Str → Except Err Str) : Piece → Except Err Str
  | .lit s => .ok s
  | .fld n => val n

def values (val : Str → Except Err Str) : List Piece → Except Err Str
  | [] => .ok []
  | p :: ps =>
    match p.value val with
    | .error e => .error e
    | .ok v => (values val ps).map (v ++ ·)

theorem format_lit (val : Str → Except Err Str) (a s : Str) (h : ∀ ch ∈ a, ch ≠ '{' ∧ ch ≠ '}') :
    format val none (a ++ s) = (format val none s).map (a ++ ·) := by
  induction a with
  | nil => rw [List.nil_append]; cases format val none s <;> rfl
  | cons x a ih =>
    have hx := h x (by simp)
    rw [List.cons_append, format, if_neg hx.1, if_neg hx.2, ih (fun ch hc => h ch (by simp [hc]))]
    · cases format val none s <;> rfl
    · rintro _ rfl; exact absurd rfl hx.1
    · rintro _ rfl; exact absurd rfl hx.2

theorem format_name (val : Str → Except Err Str) (n cur s : Str) (h : ∀ ch ∈ n, ch ≠ '{' ∧ ch ≠ '}') :
    format val (some cur) (n ++ '}' :: s) = match val (cur ++ n) with
      | .error e => .error e
      | .ok v => (format val none s).map (v ++ ·) := by
  induction n generalizing cur with
  | nil => rw [List.nil_append, format, if_pos rfl, List.append_nil]; rfl
  | cons x n ih =>
    rw [List.cons_append, format, if_neg (h x (by simp)).2, ih _ (fun ch hc => h ch (by simp [hc]))]
    simp

theorem format_field (val : Str → Except Err Str) (n s : Str) (h : ∀ ch ∈ n, ch ≠ '{' ∧ ch ≠ '}') :
    format val none ('{' :: (n ++ ['}']) ++ s) = match val n with
      | .error e => .error e
      | .ok v => (format val none s).map (v ++ ·) := by
  rw [show '{' :: (n ++ ['}']) ++ s = '{' :: (n ++ '}' :: s) by simp, format, if_pos rfl, format_name val n [] s h]
  · rfl
  · intro t ht hh
    cases n with
    | nil => simp at hh
    | cons x n => simp only [List.cons_append, List.cons.injEq] at hh; exact (h x (by simp)).1 hh.1
  · intro t ht _; exact absurd ht (by decide)

theorem format_pieces (val : Str → Except Err Str) (ps : List Piece) (h : ∀ p ∈ ps, p.Good) :
    format val none (ps.flatMap Piece.text) = values val ps := by
  induction ps with
  | nil => rfl
  | cons p ps ih =>
    have ih := ih (fun q hq => h q (by simp [hq]))
    rw [List.flatMap_cons]
    cases p with
    | lit s => rw [Piece.text, format_lit val s _ (h (.lit s) (by simp)), ih]; rfl
    | fld n => rw [Piece.text, format_field val n _ (h (.fld n) (by simp)), ih]; rfl

/-! ## Cutting -/

theorem trim_plain (c : Cfg) (s : Str) (h : Spec.Plain c s) : trim s = s := by
  have key : ∀ (t : Str), (∀ ch, t.head? = some ch → ¬ Spec.Odd ch) →
      t.dropWhile (fun ch => ch = '-' || ch = '*' || ch = '`') = t := by
    intro t ht
    cases t with
    | nil => rfl
    | cons x t =>
      have := ht x rfl
      rw [List.dropWhile_cons, if_neg (by simpa [Spec.Odd, or_assoc] using this)]
  rw [trim, strip, lstrip, key s h.first, rstrip, key, List.reverse_reverse]
  intro ch hc
  rw [List.head?_reverse] at hc
  exact h.last ch hc

theorem cleanPath_plain (c : Cfg) (p : Path) (h : Spec.PlainPath c p) : cleanPath c p = toStr p := by
  rw [cleanPath, h.valid, trim_plain c _ h.plain]

theorem mem_trim (s : Str) (ch : Char) (h : ch ∈ trim s) : ch ∈ s := by
  rw [trim, strip, rstrip, List.mem_reverse] at h
  have h := (List.dropWhile_sublist _).mem h
  rw [List.mem_reverse] at h
  exact (List.dropWhile_sublist _).mem h

/-- A name that has been cut does not begin with `-`. -/
theorem trim_head (s : Str) : (trim s).head? ≠ some '-' := by
  intro h
  have e : trim s ≠ [] := by intro e; rw [e] at h; cases h
  obtain ⟨t, ht⟩ : ∃ t, trim s ++ t = lstrip (fun ch => ch = '-' || ch = '*' || ch = '`') s := by
    rw [trim, strip, rstrip]
    obtain ⟨t, ht⟩ := List.dropWhile_suffix (l := (lstrip (fun ch => ch = '-' || ch = '*' || ch = '`') s).reverse)
      (fun ch => (ch = '-' || ch = '*' || ch = '`' : Bool))
    refine ⟨t.reverse, ?_⟩
    rw [← List.reverse_append, ht, List.reverse_reverse]
  have hh : (lstrip (fun ch => ch = '-' || ch = '*' || ch = '`') s).head? = some '-' := by
    rw [← ht, List.head?_append, h]; rfl
  have := List.head?_dropWhile_not (fun ch => (ch = '-' || ch = '*' || ch = '`' : Bool)) s
  rw [lstrip] at hh
  rw [hh] at this
  simp at this

/-! ## Arguments -/

/-- The words of a path in a command. -/
def words (c : Cfg) (p : Path) : List Str := splitWords c.sp [] (cleanPath c p)

theorem words_plain (c : Cfg) (p : Path) (h : Spec.PlainPath c p) : words c p = [toStr p] := by
  rw [words, cleanPath_plain c p h, splitWords_one c.sp _ h.plain.nonempty h.plain.noSpace]

theorem flatMap_words (c : Cfg) (l : List Path) (h : ∀ p ∈ l, Spec.PlainPath c p) : l.flatMap (words c) = l.map toStr := by
  induction l with
  | nil => rfl
  | cons p l ih => rw [List.flatMap_cons, words_plain c p (h p (by simp)), ih (fun q hq => h q (by simp [hq]))]; rfl

theorem visible (c : Cfg) (hs : Spec.Spaces c.sp) (w : Str) (h : w.all (fun ch => 33 ≤ ch.toNat && ch.toNat ≤ 126) = true) :
    ∀ ch ∈ w, c.sp ch = false := by
  intro ch hc
  rw [List.all_eq_true] at h
  have := h ch hc
  simp only [Bool.and_eq_true, decide_eq_true_eq] at this
  exact hs.visible ch this.1 this.2

/-- A fixed word of a command. -/
theorem fixed (c : Cfg) (hs : Spec.Spaces c.sp) (w s : Str) (hn : w ≠ [])
    (h : w.all (fun ch => 33 ≤ ch.toNat && ch.toNat ≤ 126) = true) :
    splitWords c.sp [] (w ++ ' ' :: s) = w :: splitWords c.sp [] s :=
  splitWords_cons c.sp w s hs.space hn (visible c hs w h)

/-- An option with a value. -/
theorem option (c : Cfg) (hs : Spec.Spaces c.sp) (w v s : Str) (hn : w ≠ [])
    (h : w.all (fun ch => 33 ≤ ch.toNat && ch.toNat ≤ 126) = true) (hv : ∀ ch ∈ v, c.sp ch = false) :
    splitWords c.sp [] ((w ++ v) ++ ' ' :: s) = (w ++ v) :: splitWords c.sp [] s :=
  splitWords_cons c.sp _ s hs.space (by simp [hn]) (by
    intro ch hc
    rw [List.mem_append] at hc
    rcases hc with hc | hc
    · exact visible c hs w h ch hc
    · exact hv ch hc)

theorem join_words (c : Cfg) (hs : Spec.Spaces c.sp) (l : List Path) :
    splitWords c.sp [] (join " ".toList (l.map (cleanPath c))) = l.flatMap (words c) := by
  rw [splitWords_join c.sp _ hs.space, List.flatMap_map]; rfl

def outField : Piece := .fld "builder.outfilepath".toList
def inField : Piece := .fld "builder.infilepaths".toList
def dirField : Piece := .fld "builder.cache_path".toList
def jobField : Piece := .fld "builder.jobname".toList

theorem outField_good : outField.Good := by unfold outField Piece.Good; decide
theorem inField_good : inField.Good := by unfold inField Piece.Good; decide
theorem dirField_good : dirField.Good := by unfold dirField Piece.Good; decide
theorem jobField_good : jobField.Good := by unfold jobField Piece.Good; decide

theorem value_lit (val : Str → Except Err Str) (s : Str) : (Piece.lit s).value val = .ok s := rfl

theorem value_out (c : Cfg) (b : Builder) : outField.value (b.getField c) = .ok (cleanPath c b.out) := by
  rw [outField, Piece.value, Builder.getField, Builder.field, if_pos rfl]

theorem value_in (c : Cfg) (b : Builder) :
    inField.value (b.getField c) = .ok (join " ".toList (b.infilepaths.map (cleanPath c))) := by
  rw [inField, Piece.value, Builder.getField, Builder.field, if_neg (by decide), if_pos rfl]

theorem value_dir (c : Cfg) (b : Builder) (h : b.tool = .latexmk ∨ b.tool = .pdflatex) :
    dirField.value (b.getField c) = .ok (cleanPath c (parent b.out)) := by
  rw [dirField, Piece.value, Builder.getField, Builder.field, if_neg (by decide), if_neg (by decide), if_pos h, if_pos rfl]

theorem value_job (c : Cfg) (b : Builder) (h : b.tool = .latexmk ∨ b.tool = .pdflatex) :
    jobField.value (b.getField c) = .ok (trim (stem b.out)) := by
  rw [jobField, Piece.value, Builder.getField, Builder.field, if_neg (by decide), if_neg (by decide), if_pos h,
    if_neg (by decide), if_pos rfl]

theorem good_pieces (ps : List Piece) (h : ∀ p ∈ ps, p.Good) (c : Cfg) (b : Builder) (t : Str) (ht : t = ps.flatMap Piece.text) :
    format (b.getField c) none t = values (b.getField c) ps := by
  rw [ht, format_pieces _ _ h]

/-- A builder of which the command has the output file and then the input files. -/
theorem base_out_in (c : Cfg) (b : Builder) (pre : Str) (hp : (Piece.lit pre).Good)
    (ha : b.tool.action = [Piece.lit pre, outField, .lit " ".toList, inField].flatMap Piece.text) :
    format (b.getField c) none b.tool.action =
      .ok (pre ++ (cleanPath c b.out ++ ' ' :: join " ".toList (b.infilepaths.map (cleanPath c)))) := by
  rw [good_pieces _ ?_ c b _ ha]
  · simp only [values, value_out, value_in]
    simp [Piece.value, Except.map]
  · intro p hp'
    simp only [List.mem_cons, List.not_mem_nil, or_false] at hp'
    rcases hp' with rfl | rfl | rfl | rfl
    · exact hp
    · exact outField_good
    · show ∀ ch ∈ _, _; decide
    · exact inField_good

theorem base_in_out (c : Cfg) (b : Builder) (pre : Str) (hp : (Piece.lit pre).Good)
    (ha : b.tool.action = [Piece.lit pre, inField, .lit " ".toList, outField].flatMap Piece.text) :
    format (b.getField c) none b.tool.action =
      .ok (pre ++ (join " ".toList (b.infilepaths.map (cleanPath c)) ++ ' ' :: cleanPath c b.out)) := by
  rw [good_pieces _ ?_ c b _ ha]
  · simp only [values, value_out, value_in]
    simp [Piece.value, Except.map]
  · intro p hp'
    simp only [List.mem_cons, List.not_mem_nil, or_false] at hp'
    rcases hp' with rfl | rfl | rfl | rfl
    · exact hp
    · exact inField_good
    · show ∀ ch ∈ _, _; decide
    · exact outField_good

/-- The words of a command, with those of each path. -/
def shape (c : Cfg) (b : Builder) : List Str :=
  let ins := b.infilepaths.flatMap (words c)
  let out := words c b.out
  match b.tool with
  | .pdfcrop => ["pdf-crop-margins".toList, "-o".toList] ++ out ++ ins
  | .pdf2svg => ["pdf2svg".toList] ++ ins ++ out
  | .asy => ["asy".toList, "-safe".toList, "-f".toList, "pdf".toList, "-o".toList] ++ out ++ ins
  | .scalesvg => ["rsvg-convert".toList, "-f".toList, "svg".toList, "-o".toList] ++ out ++ ins
  | .latexmk => ["latexmk".toList, "-pdf".toList, "-norc".toList, "-f".toList, "-bibtex-".toList,
      "-jobname=".toList ++ trim (stem b.out), "-output-directory=".toList ++ cleanPath c (parent b.out)] ++ ins
  | .pdflatex => ["pdflatex".toList, "-interaction=nonstopmode".toList, "-halt-on-error".toList,
      "-output-directory=".toList ++ cleanPath c (parent b.out), "-jobname=".toList ++ trim (stem b.out)] ++ ins
  | .convert => ["convert".toList] ++ ins ++ out

/-- For the builders of latex: the directory and the name of the output have no spaces. -/
def Tidy (c : Cfg) (b : Builder) : Prop :=
  (b.tool = .latexmk ∨ b.tool = .pdflatex) →
    (∀ ch ∈ trim (stem b.out), c.sp ch = false) ∧ ∀ ch ∈ cleanPath c (parent b.out), c.sp ch = false

theorem base_shape (c : Cfg) (hs : Spec.Spaces c.sp) (b : Builder) (ht : Tidy c b) : b.baseArgs c = .ok (shape c b) := by
  obtain ⟨t, ps, out, o⟩ := b
  rw [Builder.baseArgs]
  cases t with
  | pdfcrop =>
    rw [base_out_in c ⟨.pdfcrop, ps, out, o⟩ "pdf-crop-margins -o ".toList (by show ∀ ch ∈ _, _; decide) (by rfl)]
    simp only [Except.map]
    rw [show "pdf-crop-margins -o ".toList = "pdf-crop-margins".toList ++ ' ' :: ("-o".toList ++ ' ' :: []) by rfl]
    simp only [List.append_assoc, List.cons_append, List.nil_append]
    rw [fixed c hs _ _ (by decide) (by decide), fixed c hs _ _ (by decide) (by decide), splitWords_append _ _ _ _ hs.space,
      join_words c hs]
    simp [shape, words]
  | asy =>
    rw [base_out_in c ⟨.asy, ps, out, o⟩ "asy -safe -f pdf -o ".toList (by show ∀ ch ∈ _, _; decide) (by rfl)]
    simp only [Except.map]
    rw [show "asy -safe -f pdf -o ".toList = "asy".toList ++ ' ' :: ("-safe".toList ++ ' ' :: ("-f".toList ++ ' ' ::
      ("pdf".toList ++ ' ' :: ("-o".toList ++ ' ' :: [])))) by rfl]
    simp only [List.append_assoc, List.cons_append, List.nil_append]
    rw [fixed c hs _ _ (by decide) (by decide), fixed c hs _ _ (by decide) (by decide), fixed c hs _ _ (by decide) (by decide),
      fixed c hs _ _ (by decide) (by decide), fixed c hs _ _ (by decide) (by decide), splitWords_append _ _ _ _ hs.space,
      join_words c hs]
    simp [shape, words]
  | scalesvg =>
    rw [base_out_in c ⟨.scalesvg, ps, out, o⟩ "rsvg-convert -f svg -o ".toList (by show ∀ ch ∈ _, _; decide) (by rfl)]
    simp only [Except.map]
    rw [show "rsvg-convert -f svg -o ".toList = "rsvg-convert".toList ++ ' ' :: ("-f".toList ++ ' ' ::
      ("svg".toList ++ ' ' :: ("-o".toList ++ ' ' :: []))) by rfl]
    simp only [List.append_assoc, List.cons_append, List.nil_append]
    rw [fixed c hs _ _ (by decide) (by decide), fixed c hs _ _ (by decide) (by decide), fixed c hs _ _ (by decide) (by decide),
      fixed c hs _ _ (by decide) (by decide), splitWords_append _ _ _ _ hs.space, join_words c hs]
    simp [shape, words]
  | pdf2svg =>
    rw [base_in_out c ⟨.pdf2svg, ps, out, o⟩ "pdf2svg ".toList (by show ∀ ch ∈ _, _; decide) (by rfl)]
    simp only [Except.map]
    rw [show "pdf2svg ".toList = "pdf2svg".toList ++ ' ' :: [] by rfl]
    simp only [List.append_assoc, List.cons_append, List.nil_append]
    rw [fixed c hs _ _ (by decide) (by decide), splitWords_append _ _ _ _ hs.space, join_words c hs]
    simp [shape, words]
  | convert =>
    rw [base_in_out c ⟨.convert, ps, out, o⟩ "convert ".toList (by show ∀ ch ∈ _, _; decide) (by rfl)]
    simp only [Except.map]
    rw [show "convert ".toList = "convert".toList ++ ' ' :: [] by rfl]
    simp only [List.append_assoc, List.cons_append, List.nil_append]
    rw [fixed c hs _ _ (by decide) (by decide), splitWords_append _ _ _ _ hs.space, join_words c hs]
    simp [shape, words]
  | latexmk =>
    obtain ⟨hj, hd⟩ := ht (.inl rfl)
    have e := good_pieces [.lit "latexmk -pdf -norc -f -bibtex- -jobname=".toList, jobField, .lit " -output-directory=".toList, dirField,
      .lit " ".toList, inField] (by
        intro p hp'
        simp only [List.mem_cons, List.not_mem_nil, or_false] at hp'
        rcases hp' with rfl | rfl | rfl | rfl | rfl | rfl
        · show ∀ ch ∈ _, _; decide
        · exact jobField_good
        · show ∀ ch ∈ _, _; decide
        · exact dirField_good
        · show ∀ ch ∈ _, _; decide
        · exact inField_good) c ⟨.latexmk, ps, out, o⟩ (Tool.action .latexmk) (by decide +kernel)
    rw [e]
    simp only [values, value_job c ⟨.latexmk, ps, out, o⟩ (.inl rfl), value_dir c ⟨.latexmk, ps, out, o⟩ (.inl rfl), value_in, value_lit,
      Except.map]
    rw [show "latexmk -pdf -norc -f -bibtex- -jobname=".toList = "latexmk".toList ++ ' ' :: ("-pdf".toList ++ ' ' ::
      ("-norc".toList ++ ' ' :: ("-f".toList ++ ' ' :: ("-bibtex-".toList ++ ' ' :: "-jobname=".toList)))) by rfl,
      show " -output-directory=".toList = ' ' :: "-output-directory=".toList by rfl, show " ".toList = ' ' :: [] by rfl]
    simp only [List.append_assoc, List.cons_append, List.nil_append, List.append_nil]
    rw [fixed c hs _ _ (by decide) (by decide), fixed c hs _ _ (by decide) (by decide), fixed c hs _ _ (by decide) (by decide),
      fixed c hs _ _ (by decide) (by decide), fixed c hs _ _ (by decide) (by decide), ← List.append_assoc,
      option c hs _ _ _ (by decide) (by decide) hj, ← List.append_assoc, option c hs _ _ _ (by decide) (by decide) hd,
      show [' '] = " ".toList by rfl, join_words c hs]
    simp [shape]
  | pdflatex =>
    obtain ⟨hj, hd⟩ := ht (.inr rfl)
    have e := good_pieces [.lit "pdflatex -interaction=nonstopmode -halt-on-error -output-directory=".toList, dirField,
      .lit " -jobname=".toList, jobField, .lit " ".toList, inField] (by
        intro p hp'
        simp only [List.mem_cons, List.not_mem_nil, or_false] at hp'
        rcases hp' with rfl | rfl | rfl | rfl | rfl | rfl
        · show ∀ ch ∈ _, _; decide
        · exact dirField_good
        · show ∀ ch ∈ _, _; decide
        · exact jobField_good
        · show ∀ ch ∈ _, _; decide
        · exact inField_good) c ⟨.pdflatex, ps, out, o⟩ (Tool.action .pdflatex) (by decide +kernel)
    rw [e]
    simp only [values, value_job c ⟨.pdflatex, ps, out, o⟩ (.inr rfl), value_dir c ⟨.pdflatex, ps, out, o⟩ (.inr rfl), value_in, value_lit,
      Except.map]
    rw [show "pdflatex -interaction=nonstopmode -halt-on-error -output-directory=".toList = "pdflatex".toList ++ ' ' ::
      ("-interaction=nonstopmode".toList ++ ' ' :: ("-halt-on-error".toList ++ ' ' :: "-output-directory=".toList)) by rfl,
      show " -jobname=".toList = ' ' :: "-jobname=".toList by rfl, show " ".toList = ' ' :: [] by rfl]
    simp only [List.append_assoc, List.cons_append, List.nil_append, List.append_nil]
    rw [fixed c hs _ _ (by decide) (by decide), fixed c hs _ _ (by decide) (by decide), fixed c hs _ _ (by decide) (by decide),
      ← List.append_assoc, option c hs _ _ _ (by decide) (by decide) hd, ← List.append_assoc,
      option c hs _ _ _ (by decide) (by decide) hj, show [' '] = " ".toList by rfl, join_words c hs]
    simp [shape]

theorem texts_map (l : List Str) : texts (l.map .str) = .ok l := by
  induction l with
  | nil => rfl
  | cons s l ih => rw [List.map_cons, texts, ih]; rfl

theorem texts_int (l : List Str) (n : Int) : texts (l.map .str ++ [.int n]) = .error .typeError := by
  induction l with
  | nil => rfl
  | cons s l ih => rw [List.map_cons, List.cons_append, texts, ih]; rfl

/-! ## Files -/

theorem files_loop (ps : List Param) (seen : List Param) (l : List Path) (h : ∀ q, Param.file q ∈ seen ↔ q ∈ l) :
    ps.foldl (fun l p => match p with | .file q => if q ∈ l then l else l ++ [q] | _ => l) l =
      l ++ (Lists.uniqLoop id seen ps).filterMap (fun | .file p => some p | _ => none) := by
  induction ps generalizing seen l with
  | nil => simp [Lists.uniqLoop]
  | cons p ps ih =>
    rw [List.foldl_cons, Lists.uniqLoop]
    simp only [id]
    cases p with
    | file q =>
      by_cases hq : Param.file q ∈ seen
      · rw [if_pos hq]; simp only; rw [if_pos ((h q).1 hq)]; exact ih seen l h
      · rw [if_neg hq]; simp only
        rw [if_neg (fun x => hq ((h q).2 x)), ih (.file q :: seen) (l ++ [q]) (by
          intro r; simp only [List.mem_cons, Param.file.injEq, List.mem_append, List.not_mem_nil, or_false, h]
          constructor <;> (rintro (h | h) <;> simp [h]))]
        simp
    | pair n v =>
      by_cases hq : Param.pair n v ∈ seen
      · rw [if_pos hq]; exact ih seen l h
      · rw [if_neg hq]; simp only
        rw [ih (.pair n v :: seen) l (by intro r; simp [h])]
        simp
    | text s =>
      by_cases hq : Param.text s ∈ seen
      · rw [if_pos hq]; exact ih seen l h
      · rw [if_neg hq]; simp only
        rw [ih (.text s :: seen) l (by intro r; simp [h])]
        simp

theorem files_eq (ps : List Param) :
    (Lists.uniq id ps).filterMap (fun | .file p => some p | _ => none) = Spec.files ps := by
  exact ((files_loop ps [] [] (by simp)).trans (by rfl)).symm

theorem new_ok (c : Cfg) (t : Tool) (ps : List Param) (out : Path) (b : Builder) (h : new c t ps out = .ok b) :
    b.tool = t ∧ b.out = out ∧ b.infilepaths = Spec.files ps := by
  rw [new] at h
  generalize options c t (Lists.uniq id ps) = r at h
  cases r with
  | error e => cases h
  | ok o =>
    simp only [Except.ok.injEq] at h
    subst h
    exact ⟨rfl, rfl, files_eq ps⟩

/-! ## Parameters with names -/

theorem getParameter_loop (name : Str) (ps seen : List Param) (h : ∀ v, Param.pair name v ∉ seen) :
    getParameter name (Lists.uniqLoop id seen ps) = getParameter name ps := by
  induction ps generalizing seen with
  | nil => rfl
  | cons p ps ih =>
    rw [Lists.uniqLoop]
    simp only [id]
    by_cases hp : p ∈ seen
    · rw [if_pos hp, ih seen h]
      cases p with
      | file q => rfl
      | text s => rfl
      | pair n v =>
        have hn : n ≠ name := by rintro rfl; exact h v hp
        simp only [getParameter, List.filterMap_cons, if_neg hn]
    · rw [if_neg hp]
      cases p with
      | file q => exact ih _ (by simp [h])
      | text s => exact ih _ (by simp [h])
      | pair n v =>
        by_cases hn : n = name
        · simp only [getParameter, List.filterMap_cons, if_pos hn, List.head?_cons]
        · have := ih (.pair n v :: seen) (by intro w; simp [h, Ne.symm hn])
          simp only [getParameter, List.filterMap_cons, if_neg hn] at this ⊢
          exact this

theorem getParameter_uniq (name : Str) (ps : List Param) : getParameter name (Lists.uniq id ps) = getParameter name ps :=
  getParameter_loop name ps [] (by simp)

theorem getParameter_iff (name : Str) (ps : List Param) (v : Value) : getParameter name ps = some v ↔ Spec.First ps name v := by
  induction ps with
  | nil => simp [getParameter, Spec.First]
  | cons p ps ih =>
    have skip : (∀ w, p ≠ .pair name w) → (Spec.First (p :: ps) name v ↔ Spec.First ps name v) := by
      intro hp
      constructor
      · rintro ⟨a, b, e, h⟩
        cases a with
        | nil => simp only [List.nil_append, List.cons.injEq] at e; exact absurd e.1 (hp v)
        | cons x a =>
          simp only [List.cons_append, List.cons.injEq] at e
          exact ⟨a, b, e.2, fun w hw => h w (by simp [hw])⟩
      · rintro ⟨a, b, e, h⟩
        refine ⟨p :: a, b, by rw [e]; rfl, ?_⟩
        intro w hw
        rw [List.mem_cons] at hw
        rcases hw with hw | hw
        · exact hp w hw.symm
        · exact h w hw
    cases p with
    | file q => rw [skip (by simp), ← ih]; rfl
    | text s => rw [skip (by simp), ← ih]; rfl
    | pair n w =>
      by_cases hn : n = name
      · subst hn
        simp only [getParameter, List.filterMap_cons, if_true, List.head?_cons, Option.some.injEq]
        constructor
        · rintro rfl; exact ⟨[], ps, rfl, by simp⟩
        · rintro ⟨a, b, e, h⟩
          cases a with
          | nil => simp only [List.nil_append, List.cons.injEq, Param.pair.injEq, true_and] at e; exact e.1
          | cons x a =>
            simp only [List.cons_append, List.cons.injEq] at e
            exact absurd (by rw [← e.1]; simp) (h w)
      · rw [skip (by simp [hn]), ← ih]
        simp only [getParameter, List.filterMap_cons, if_neg hn]

theorem getParameter_none (name : Str) (ps : List Param) : getParameter name ps = none ↔ ∀ v, ¬ Spec.First ps name v := by
  constructor
  · intro h v hv; rw [(getParameter_iff name ps v).2 hv] at h; cases h
  · intro h
    cases hg : getParameter name ps with
    | none => rfl
    | some v => exact absurd ((getParameter_iff name ps v).1 hg) (h v)

end Verif.Command
