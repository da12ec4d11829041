import Verif.Lemmas.Checkers

/-!
# C43: software dependencies
-/

namespace Verif.Checkers

open Verif

variable {word sp : Char → Bool}

/-- C43: a dependency is available exactly if it is met by the programs and packages that are available: all parts of
an `All` list, some part of an `Any` list, and an `Optional` list always. -/
theorem C43_available (d : Dep) : available d = true ↔ Met (fun _ a => a = some true) d := available_iff d

/-- C43: after a check of the executables of a list, the list is available exactly if it is met by the executables
that were found before or are found now. -/
theorem C43_executables (which : Str → Bool) (k : Kind) (c : Str) (ds : List Dep) :
    ∃ d', checkExecutables which (.group k c ds) = .ok d' ∧
      (available d' = true ↔ Met (fun n a => a = some true ∨ (a = none ∧ which n = true)) (.group k c ds)) := by
  refine ⟨mapProgs (lookUp which) (.group k c ds), rfl, ?_⟩
  rw [available_iff, met_mapProgs]
  have : (fun (n : Str) (a : Option Bool) => lookUp which n a = some true) =
      fun n a => a = some true ∨ (a = none ∧ which n = true) := by
    funext n a
    apply propext
    cases a with
    | none => simp [lookUp]
    | some b => simp [lookUp]
  rw [this]

/-- C43: every executable at any depth has been looked up, unless it was before. -/
theorem C43_lookup_all (which : Str → Bool) (k : Kind) (c : Str) (ds : List Dep) (d' : Dep)
    (h : checkExecutables which (.group k c ds) = .ok d') (n : Str) (b : Option Bool) :
    Has d' n b ↔ (b = some (which n) ∧ Has (.group k c ds) n none) ∨ (b ≠ none ∧ Has (.group k c ds) n b) := by
  have hd : d' = mapProgs (lookUp which) (.group k c ds) := by
    simp only [checkExecutables, Except.ok.injEq] at h
    exact h.symm
  rw [hd, has_mapProgs]
  constructor
  · rintro ⟨a, ha, rfl⟩
    cases a with
    | none => exact Or.inl ⟨rfl, ha⟩
    | some x => exact Or.inr ⟨by simp [lookUp], by simpa [lookUp] using ha⟩
  · rintro (⟨rfl, ha⟩ | ⟨hb, ha⟩)
    · exact ⟨none, ha, rfl⟩
    · cases b with
      | none => exact absurd rfl hb
      | some x => exact ⟨some x, ha, rfl⟩

/-- C43: LaTeX packages at any depth are available exactly if `kpsewhich` finds them. -/
theorem C43_kpsewhich (look : Str → Bool) (ext : Str) (k : Kind) (c : Str) (ds : List Dep) :
    ∃ d', checkKpse (some look) ext (.group k c ds) = .ok d' ∧
      (available d' = true ↔ Met (fun n _ => look (n ++ ext) = true) (.group k c ds)) := by
  refine ⟨mapProgs (fun n _ => some (look (n ++ ext))) (.group k c ds), rfl, ?_⟩
  rw [available_iff, met_mapProgs]
  simp

/-- C43: the flattened list has all objects, each once and before its parts, with their levels; it fails if the lists
are nested too deeply. -/
theorem C43_flatten (ds : List Dep) : flatten ds = if nestings ds ≤ 15 then some (allNodes 1 ds) else none := by
  unfold flatten
  split
  · exact flattenItems_nodes 15 1 ds ‹_›
  · exact flattenItems_none 15 1 ds (by omega)

/-! ## Checkers -/

/-- C43: if the lists of a checker have different categories, then a check succeeds exactly if each list can be
checked by the method for its category, each has then been checked, and the checker is available exactly if all
its parts are. -/
theorem C43_check_partial (handlers : Str → Option (Dep → Except CheckError Dep))
    (hkey : ∀ c f k l d', handlers c = some f → f (.group k c l) = .ok d' → key d' = c)
    (ds : List Dep) (hnd : (ds.map key).Nodup) (b : Bool) (ds' : List Dep) :
    check handlers ds = .ok (b, ds') ↔
      Checked handlers ds ds' ∧ (b = true ↔ ∀ d ∈ ds', Met (fun _ a => a = some true) d) := by
  have h := runHandlers_checked handlers hkey ds [] hnd (by simp)
  simp only [List.nil_append] at h
  unfold check
  cases hr : runHandlers handlers (categories ds) ds with
  | error e =>
    simp only [reduceCtorEq, false_iff]
    rintro ⟨h1, _⟩
    have := (h ds').2 ⟨ds', h1, rfl⟩
    rw [hr] at this
    cases this
  | ok r =>
    simp only [Except.ok.injEq, Prod.mk.injEq]
    obtain ⟨ds1, h1, rfl⟩ := (h r).1 hr
    rw [← allAvailable_iff]
    constructor
    · rintro ⟨rfl, rfl⟩; exact ⟨h1, Iff.rfl⟩
    · rintro ⟨h2, h3⟩
      have := (h ds').2 ⟨ds', h2, rfl⟩
      rw [hr] at this
      simp only [Except.ok.injEq] at this
      subst this
      exact ⟨by cases b <;> cases hA : allAvailable r <;> simp_all, rfl⟩

/-- The methods of the checkers keep the categories. -/
theorem C43_handlers_keep (which : Str → Bool) (lower : Str → Str) (freeze : Option (List Str)) (kpse : Option (Str → Bool)) :
    (∀ c f k l d', baseHandlers which c = some f → f (.group k c l) = .ok d' → key d' = c) ∧
    (∀ c f k l d', pythonHandlers which word sp lower freeze c = some f → f (.group k c l) = .ok d' → key d' = c) ∧
    (∀ c f k l d', pdfHandlers which kpse c = some f → f (.group k c l) = .ok d' → key d' = c) := by
  refine ⟨?_, ?_, ?_⟩
  · intro c f k l d' hf hd
    unfold baseHandlers at hf
    split at hf
    · simp only [Option.some.injEq] at hf; subst hf; exact key_checkExecutables which _ _ hd
    · split at hf
      · simp only [Option.some.injEq] at hf; subst hf
        simp only [Except.ok.injEq] at hd; subst hd; rfl
      · cases hf
  · intro c f k l d' hf hd
    unfold pythonHandlers at hf
    split at hf
    · simp only [Option.some.injEq] at hf; subst hf; exact key_checkExecutables which _ _ hd
    · split at hf
      · cases freeze with
        | none =>
          simp only [Option.some.injEq] at hf; subst hf
          simp only [Except.ok.injEq] at hd; subst hd; rfl
        | some fl => simp only [Option.some.injEq] at hf; subst hf; exact key_checkPip _ _ _ hd
      · cases hf
  · intro c f k l d' hf hd
    unfold pdfHandlers at hf
    split at hf
    · simp only [Option.some.injEq] at hf; subst hf; exact key_checkExecutables which _ _ hd
    · split at hf
      · simp only [Option.some.injEq] at hf; subst hf; exact key_checkKpse _ _ _ _ hd
      · split at hf
        · simp only [Option.some.injEq] at hf; subst hf; exact key_checkKpse _ _ _ _ hd
        · split at hf
          · simp only [Option.some.injEq] at hf; subst hf; exact key_checkKpse _ _ _ _ hd
          · cases hf

/-- C43: the checker of the package for pdf files looks for these programs, packages, fonts and classes. -/
theorem C43_pdf_parts (which look : Str → Bool) : ∃ b, check (pdfHandlers which (some look)) pdfDeps = .ok (b,
    [.group .all "executables".toList
       [.group .any "compilers".toList (["pdflatex", "xelatex", "lualatex"].map fun n => .prog n.toList (some (which n.toList))),
        .group .any "package_managers".toList [.prog "kpsewhich".toList (some (which "kpsewhich".toList))]],
     .group .all "packages".toList (["graphicx", "caption", "amsmath", "mathtools", "bm", "easylist", "fancyvrb", "hyperref", "enumitem",
       "geometry", "xcolor"].map fun n => .prog n.toList (some (look (n.toList ++ ".sty".toList)))),
     .group .optional "fonts".toList (["ecrm1200", "tcrm1200"].map fun n => .prog n.toList (some (look (n.toList ++ ".tfm".toList)))),
     .group .optional "classes".toList (["article", "report", "tufte-book"].map fun n => .prog n.toList (some (look (n.toList ++ ".cls".toList))))]) :=
  ⟨_, rfl⟩

/-- C43: the checker of the package for pdf files: a compiler, `kpsewhich` and all LaTeX packages are needed, but no font
or class. -/
theorem C43_pdf (which look : Str → Bool) :
    ∃ ds', check (pdfHandlers which (some look)) pdfDeps = .ok
      (((which "pdflatex".toList || which "xelatex".toList || which "lualatex".toList) && which "kpsewhich".toList) &&
        (["graphicx", "caption", "amsmath", "mathtools", "bm", "easylist", "fancyvrb", "hyperref", "enumitem", "geometry",
          "xcolor"].all fun p => look (p.toList ++ ".sty".toList)), ds') := by
  have hrun : ∃ r, runHandlers (pdfHandlers which (some look)) (categories pdfDeps) pdfDeps = .ok r ∧ allAvailable r =
      (((which "pdflatex".toList || which "xelatex".toList || which "lualatex".toList) && which "kpsewhich".toList) &&
        (["graphicx", "caption", "amsmath", "mathtools", "bm", "easylist", "fancyvrb", "hyperref", "enumitem", "geometry",
          "xcolor"].all fun p => look (p.toList ++ ".sty".toList))) := by
    refine ⟨_, rfl, ?_⟩
    have hp : ∀ n b, available (.prog n (some b)) = b := by
      intro n b
      cases b <;> rfl
    have h1 : ∀ c ds, available (.group .all c ds) = allAvailable ds := fun _ _ => by simp only [available]
    have h2 : ∀ c ds, available (.group .any c ds) = anyAvailable ds := fun _ _ => by simp only [available]
    have h3 : ∀ c ds, available (.group .optional c ds) = true := fun _ _ => by simp only [available]
    simp only [allAvailable, hp, h1, h2, h3, mapAll, mapProgs, anyAvailable, lookUp, new, List.all_cons, List.all_nil]
    cases which "pdflatex".toList <;> cases which "xelatex".toList <;> cases which "lualatex".toList <;>
      cases which "kpsewhich".toList <;> simp [Bool.and_assoc]
  obtain ⟨r, hr, hA⟩ := hrun
  exact ⟨r, by unfold check; rw [hr, ← hA]⟩

/-! ## Versions and packages -/

/-- C43: a name with a condition on the version is parsed, whatever the spaces around the operator. -/
theorem C43_parse (hc : Classes word sp) (n : Str) (hn : IsName word n) (ws ws' : Str) (hws : ∀ c ∈ ws, sp c = true)
    (hws' : ∀ c ∈ ws', sp c = true) (op : Op) (v : List Nat) (hv : v ≠ []) :
    nameAndVersion word sp (n ++ (ws ++ (opText op ++ (ws' ++ versionText v)))) = .ok (some (n, some op, some v)) :=
  nameAndVersion_op hc n hn ws ws' hws hws' op v hv

/-- C43: a name alone has no condition. -/
theorem C43_parse_name (n : Str) (hn : IsName word n) : nameAndVersion word sp n = .ok (some (n, none, none)) :=
  nameAndVersion_name n hn

/-- C43: versions are compared number by number. -/
theorem C43_order (op : Op) (a b : List Nat) : op.apply a b = true ↔ Fits op a b := apply_iff op a b

/-- The first installed package that starts with the name decides. -/
theorem C43_package_first (hc : Classes word sp) (lower : Str → Str) (n : Str) (hn : IsName word n)
    (hl : IsName word (lower n)) (c : Option (Op × List Nat)) (hv : ∀ op v, c = some (op, v) → v ≠ [])
    (l : List (Str × List Nat)) (hnames : ∀ e ∈ l, IsName word e.1 ∧ e.2 ≠ []) (a : Option Bool) :
    ∃ b, checkPackage word sp lower (freezeText l) (requirement n c) a = .ok b ∧
      (∀ e, l.find? (fun e => (lower n).isPrefixOf e.1) = some e → Meets e.2 c → b = some true) ∧
      ((∀ e, l.find? (fun e => (lower n).isPrefixOf e.1) = some e → ¬ Meets e.2 c) → b = a) := by
  have hfilter : (freezeText l).filter (fun i => (lower n).isPrefixOf i) =
      freezeText (l.filter fun e => (lower n).isPrefixOf e.1) := by
    unfold freezeText
    rw [List.filter_map]
    congr 1
    apply List.filter_congr
    intro e he
    simp only [Function.comp]
    have key : ∀ (x y : Str), (∀ ch ∈ x, nameChar word ch = true) → x.isPrefixOf (y ++ "==".toList ++ versionText e.2) = x.isPrefixOf y := by
      intro x y hx
      induction x generalizing y with
      | nil => simp
      | cons d x ih =>
        cases y with
        | nil =>
          have hd := hx d (by simp)
          have hne : d ≠ '=' := by
            rintro rfl
            have := hc.ops '=' (by decide)
            simp [nameChar, this.1] at hd
          simp [List.isPrefixOf, hne]
        | cons f y =>
          simp only [List.cons_append, List.isPrefixOf]
          rw [ih y (fun ch hch => hx ch (by simp [hch]))]
    exact key _ _ (nameChar_of _ hl)
  have hfind : l.find? (fun e => (lower n).isPrefixOf e.1) = (l.filter fun e => (lower n).isPrefixOf e.1).head? := by
    rw [List.head?_filter]
  unfold checkPackage
  rw [nameAndVersion_requirement hc n hn c hv]
  simp only [hfilter, hfind]
  cases hf : l.filter (fun e => (lower n).isPrefixOf e.1) with
  | nil => exact ⟨a, rfl, by simp, by simp⟩
  | cons e rest =>
    have he : e ∈ l := (List.mem_filter.1 (by rw [hf]; simp : e ∈ l.filter _)).1
    obtain ⟨hen, hev⟩ := hnames e he
    have hparse := nameAndVersion_op hc e.1 hen [] [] (by simp) (by simp) .eq e.2 hev
    simp only [List.nil_append, opText] at hparse
    have hcons : freezeText (e :: rest) = (e.1 ++ ("==".toList ++ versionText e.2)) :: freezeText rest := by
      simp [freezeText]
    simp only [hcons, hparse, List.head?_cons, Option.some.injEq, forall_eq']
    cases c with
    | none => exact ⟨some true, rfl, by simp, by simp [Meets]⟩
    | some x =>
      obtain ⟨op, v⟩ := x
      simp only [Option.map_some, reduceCtorEq, decide_false, Bool.and_self, Bool.false_eq_true, if_false, applyOp, Meets]
      cases ha : op.apply e.2 v with
      | true =>
        refine ⟨some true, rfl, fun _ => rfl, fun h => absurd ((apply_iff op e.2 v).1 ha) h⟩
      | false =>
        refine ⟨a, rfl, fun h => ?_, fun _ => rfl⟩
        have := (apply_iff op e.2 v).2 h
        rw [ha] at this
        cases this

/-- C43: if no other installed package has a name that begins with the name of the required one, then a package becomes
available exactly if that package is installed with a fitting version. -/
theorem C43_package_partial (hc : Classes word sp) (lower : Str → Str) (n : Str) (hn : IsName word n)
    (hl : IsName word (lower n)) (c : Option (Op × List Nat)) (hv : ∀ op v, c = some (op, v) → v ≠ [])
    (l : List (Str × List Nat)) (hnames : ∀ e ∈ l, IsName word e.1 ∧ e.2 ≠ []) (hnd : (l.map (·.1)).Nodup)
    (hother : ∀ e ∈ l, lower n <+: e.1 → e.1 = lower n) :
    ∃ b, checkPackage word sp lower (freezeText l) (requirement n c) none = .ok b ∧
      (b = some true ↔ ∃ v, (lower n, v) ∈ l ∧ Meets v c) := by
  obtain ⟨b, h1, h2, h3⟩ := C43_package_first hc lower n hn hl c hv l hnames none
  refine ⟨b, h1, ?_⟩
  have huniq : ∀ e v, l.find? (fun e => (lower n).isPrefixOf e.1) = some e → (lower n, v) ∈ l → v = e.2 := by
    intro e v he hv
    have hmem := List.mem_of_find?_eq_some he
    have hp := List.find?_some he
    have hname := hother e hmem (List.isPrefixOf_iff_prefix.1 hp)
    have : ∀ (l : List (Str × List Nat)), (l.map (·.1)).Nodup → ∀ k v w, (k, v) ∈ l → (k, w) ∈ l → v = w := by
      intro l hnd k v w
      induction l with
      | nil => simp
      | cons x l ih =>
        intro hx hy
        simp only [List.map_cons, List.nodup_cons] at hnd
        rcases List.mem_cons.1 hx with hx | hx <;> rcases List.mem_cons.1 hy with hy | hy
        · rw [← hx] at hy; simpa using hy.symm
        · exact absurd (by rw [← hx]; exact List.mem_map.2 ⟨_, hy, rfl⟩) hnd.1
        · exact absurd (by rw [← hy]; exact List.mem_map.2 ⟨_, hx, rfl⟩) hnd.1
        · exact ih hnd.2 hx hy
    refine this l hnd (lower n) v e.2 hv ?_
    rw [← hname]
    exact hmem
  constructor
  · intro hb
    cases hf : l.find? (fun e => (lower n).isPrefixOf e.1) with
    | none =>
      have := h3 (by rw [hf]; simp)
      rw [hb] at this; cases this
    | some e =>
      have hmem := List.mem_of_find?_eq_some hf
      have hp := List.find?_some hf
      have hname := hother e hmem (List.isPrefixOf_iff_prefix.1 hp)
      refine ⟨e.2, by rw [← hname]; exact hmem, ?_⟩
      by_cases hm : Meets e.2 c
      · exact hm
      · have := h3 (by rw [hf]; intro e' he'; simp only [Option.some.injEq] at he'; subst he'; exact hm)
        rw [hb] at this; cases this
  · rintro ⟨v, hv, hm⟩
    cases hf : l.find? (fun e => (lower n).isPrefixOf e.1) with
    | none =>
      have := List.find?_eq_none.1 hf _ hv
      exact absurd (List.isPrefixOf_iff_prefix.2 List.prefix_rfl) this
    | some e => exact h2 e hf (by rw [← huniq e v hf hv]; exact hm)

/-! ## Examples and findings -/

def asciiWord (c : Char) : Bool := c.isAlphanum || c = '_'
def asciiSp (c : Char) : Bool := c = ' ' || c = '\n' || c = '\t'

theorem ascii_classes : Classes asciiWord asciiSp := by
  refine ⟨?_, by decide⟩
  intro c h
  unfold asciiSp at h
  simp only [Bool.or_eq_true, decide_eq_true_eq] at h
  rcases h with (rfl | rfl) | rfl <;> decide

/-- The hypotheses are met. -/
example : checkPackage asciiWord asciiSp id (freezeText [("click".toList, [8, 1]), ("lxml".toList, [4, 9])])
    (requirement "click".toList (some (.ge, [7, 0]))) none = .ok (some true) := rfl

example : requirement "click".toList (some (.ge, [7, 0])) = "click>=7.0".toList := by decide

/-- C43 does not hold if another package has a name that begins in the same way: it is taken for the required one. -/
theorem C43_other_package_taken :
    checkPackage asciiWord asciiSp id ["click-plugins==8.0".toList] "click>=7.0".toList none = .ok (some true) := rfl

/-- An installed package is not found if another one is listed before it. -/
theorem C43_package_hidden :
    checkPackage asciiWord asciiSp id ["click-plugins==1.1".toList, "click==8.0".toList] "click>=7.0".toList none = .ok none := rfl

/-- A version without an operator raises an error instead of an answer. -/
theorem C43_version_without_operator :
    checkPackage asciiWord asciiSp id ["click==8.0".toList] "click 7.0".toList none = .error .type := rfl

/-- A version with a final period raises an error. -/
theorem C43_version_period : nameAndVersion asciiWord asciiSp "click>=7.".toList = .error .value := rfl

/-- A list without a method for its category raises an error. -/
theorem C43_missing_handler (which : Str → Bool) :
    check (baseHandlers which) [.group .all "compilers".toList [new "gcc"]] = .error .missingHandler := rfl

/-- Of two lists with the same category only the first is checked, so that the second is not available. -/
theorem C43_second_list_ignored :
    check (baseHandlers fun _ => true) [.group .all "executables".toList [new "a"], .group .all "executables".toList [new "b"]] =
      .ok (false, [.group .all "executables".toList [.prog "a".toList (some true)], .group .all "executables".toList [new "b"]]) := rfl

/-- The checker of images is available in any case; it has looked up these programs. -/
theorem C43_images (which : Str → Bool) : check (baseHandlers which) imageDeps = .ok (true, [.group .optional "executables".toList
    (["asy", "convert", "pdf2svg", "pdf-crop-margins", "rsvg-convert"].map fun n => .prog n.toList (some (which n.toList)))]) := rfl

/-- The checker of images knows packages, but does not look for them. -/
theorem C43_packages_not_looked_for (which : Str → Bool) :
    check (baseHandlers which) [.group .all "packages".toList [new "a"]] = .ok (false, [.group .all "packages".toList [new "a"]]) := rfl

/-- An operator without a version: nothing is equal to it, everything differs from it. -/
theorem C43_operator_without_version :
    checkPackage asciiWord asciiSp id ["click==8.0".toList] "click==".toList none = .ok none ∧
    checkPackage asciiWord asciiSp id ["click==8.0".toList] "click!=".toList none = .ok (some true) ∧
    checkPackage asciiWord asciiSp id ["click==8.0".toList] "click>=".toList none = .error .type := ⟨rfl, rfl, rfl⟩

/-- The checker of Python needs one of four versions of Python. -/
theorem C43_python (which : Str → Bool) (lower : Str → Str) :
    check (pythonHandlers which word sp lower none) pythonDeps = .ok (false,
      [.group .any "executables".toList (["python3.6", "python3.7", "python3.8", "python3.9"].map fun n => .prog n.toList (some (which n.toList))),
       .group .all "packages".toList (["regex>=2018.11.22", "jinja2>=2.11", "lxml>=4.3.0", "python-slugify>=2.0.1", "pdfCropMargins>=0.1.4",
         "click>=7.0", "tornado>=6.1", "pygments >=2.6", "diskcache>=4.1", "pathvalidate>=2.2"].map fun n => .prog n.toList none)]) := by
  have h : ∀ b : Bool, (b && false) = false := by decide
  unfold check
  have hr : runHandlers (pythonHandlers which word sp lower none) (categories pythonDeps) pythonDeps = .ok
      [.group .any "executables".toList (["python3.6", "python3.7", "python3.8", "python3.9"].map fun n => .prog n.toList (some (which n.toList))),
       .group .all "packages".toList (["regex>=2018.11.22", "jinja2>=2.11", "lxml>=4.3.0", "python-slugify>=2.0.1", "pdfCropMargins>=0.1.4",
         "click>=7.0", "tornado>=6.1", "pygments >=2.6", "diskcache>=4.1", "pathvalidate>=2.2"].map fun n => .prog n.toList none)] := rfl
  rw [hr]
  simp [allAvailable, available]

/-- The lists of the package have different categories, all with methods. -/
example : (pdfDeps.map key).Nodup ∧ (pythonDeps.map key).Nodup := by decide

example : ∃ ds', check (pythonHandlers (fun n => n = "python3.8".toList) asciiWord asciiSp id
    (some (["regex==2020.1.1", "jinja2==2.11", "lxml==4.6.1", "python-slugify==4.0", "pdfCropMargins==0.2", "click==7.1",
      "tornado==6.1", "pygments==2.6.1", "diskcache==5.0", "pathvalidate==2.3"].map String.toList))) pythonDeps = .ok (true, ds') := ⟨_, rfl⟩

end Verif.Checkers
