import Verif.Lemmas.Targets
import Verif.Lemmas.Lists
import Verif.Lemmas.LabelText
import Verif.Props.StrParse

/-!
# C56: the targets of documents

The targets that a document lists, the builders and the output files that follow from them, and the included documents.
-/

namespace Verif.Targets

open Verif Verif.Paths Verif.Utils

/-! ### The listed targets -/

theorem dot_eq (t : Str) : dot t = dotted t := rfl

/-- C56. The entry `target` comes before the entry `targets`; without both there are no targets. -/
theorem C56_entry (sp : Char → Bool) (e : Entry) (e' : Option Entry) :
    targets sp (some e) e' = targets sp (some e) none ∧ targets sp none (some e) = targets sp (some e) none ∧
    targets sp none none = [] := by
  refine ⟨rfl, rfl, ?_⟩
  have : strToList sp [] = [[]] := C37_single sp [] (by simp)
  simp only [targets, Option.getD_none, this]
  rfl

/-- C56. The targets of a list are the names that are not empty, with a leading period, each of them once. -/
theorem C56_targets (sp : Char → Bool) (l : List Str) (e' : Option Entry) (h : "none".toList ∉ l) :
    (targets sp (some (.list l)) e').Nodup ∧
    ∀ t, t ∈ targets sp (some (.list l)) e' ↔ ∃ x ∈ l, x ≠ [] ∧ t = dotted x := by
  have e : targets sp (some (.list l)) e' = Lists.uniq id ((l.filter (· ≠ [])).map dot) := by
    simp only [targets]; rw [if_neg h]
  rw [e]
  refine ⟨Lists.uniq_nodup _, fun t => ?_⟩
  rw [Lists.mem_uniq]
  simp only [List.mem_map, List.mem_filter, dot_eq, decide_eq_true_eq]
  constructor
  · rintro ⟨x, ⟨h1, h2⟩, h3⟩; exact ⟨x, h1, h2, h3.symm⟩
  · rintro ⟨x, h1, h2, h3⟩; exact ⟨x, ⟨h1, h2⟩, h3.symm⟩

/-- C56. With the name `none` in the list there are no targets. -/
theorem C56_none (sp : Char → Bool) (l : List Str) (e' : Option Entry) (h : "none".toList ∈ l) :
    targets sp (some (.list l)) e' = [] := by
  simp only [targets]; rw [if_pos h]

theorem intercalate_comma (es : List Str) (e : Str) :
    List.intercalate ", ".toList (e :: es) = join [','] (e :: es.map (' ' :: ·)) := by
  induction es generalizing e with
  | nil => simp [join]
  | cons x es ih =>
    rw [List.intercalate_cons_cons, ih x, List.map_cons]
    cases es with
    | nil => simp [join]
    | cons y es => simp [join]

theorem strip_clean (sp : Char → Bool) (pre post t : Str) (h1 : ∀ c ∈ pre, sp c = true) (h2 : ∀ c ∈ post, sp c = true)
    (h3 : t.head?.all (sp · = false)) (h4 : t.getLast?.all (sp · = false)) (hne : t ≠ []) : strip sp (pre ++ t ++ post) = t := by
  unfold strip rstrip lstrip
  have e1 : (pre ++ t ++ post).dropWhile sp = t ++ post := by
    rw [List.append_assoc, List.dropWhile_append_of_pos h1]
    cases t with
    | nil => exact absurd rfl hne
    | cons c t => simp at h3; simp [h3]
  rw [e1, List.reverse_append, List.dropWhile_append_of_pos (by simpa using h2)]
  have e2 : t.reverse.dropWhile sp = t.reverse := by
    cases hr : t.reverse with
    | nil => rfl
    | cons c r =>
      have : t.getLast? = some c := by rw [← List.head?_reverse, hr]; rfl
      simp only [this, Option.all_some, decide_eq_true_eq] at h4
      simp [h4]
  rw [e2, List.reverse_reverse]

/-- C56. A text that lists names separated by commas and spaces stands for the list of the names. -/
theorem C56_targets_text (sp : Char → Bool) (hsp : sp ' ' = true) (l : List Str) (e' : Option Entry) (hne : l ≠ [])
    (h : ∀ x ∈ l, x ≠ [] ∧ ∀ c ∈ x, sp c = false ∧ c ≠ ';' ∧ c ≠ '\n' ∧ c ≠ ',') :
    targets sp (some (.text (List.intercalate ", ".toList l))) e' = targets sp (some (.list l)) e' := by
  have hl : strToList sp (List.intercalate ", ".toList l) = l := by
    cases l with
    | nil => exact absurd rfl hne
    | cons e es =>
      rw [intercalate_comma]
      have hclean : ∀ x ∈ e :: es, strip sp x = x := by
        intro x hx
        have := strip_clean sp [] [] x (by simp) (by simp) ?_ ?_ (h x hx).1
        · simpa using this
        · cases hh : x.head? with
          | none => rfl
          | some c => simpa using ((h x hx).2 c (List.mem_of_head? hh)).1
        · cases hh : x.getLast? with
          | none => rfl
          | some c => simpa using ((h x hx).2 c (List.mem_of_getLast? hh)).1
      have hsep : ∀ d : Char, d ≠ ' ' → (d = ';' ∨ d = '\n' ∨ d = ',') → ∀ p ∈ e :: es.map (' ' :: ·), d ∉ p := by
        intro d hd hor p hp hm
        have hx : ∀ x ∈ e :: es, d ∉ x := by
          intro x hx hm
          have := (h x hx).2 d hm
          rcases hor with rfl | rfl | rfl <;> simp at this
        rcases List.mem_cons.1 hp with rfl | hp
        · exact hx _ (by simp) hm
        · obtain ⟨x, hx', rfl⟩ := List.mem_map.1 hp
          rcases List.mem_cons.1 hm with hm | hm
          · exact hd hm
          · exact hx x (by simp [hx']) hm
      cases es with
      | nil =>
        have : join [','] [e] = e := by simp [join]
        simp only [List.map_nil, this]
        exact C37_single sp e ⟨hsep ';' (by decide) (by simp) e (by simp), hsep '\n' (by decide) (by simp) e (by simp),
          hsep ',' (by decide) (by simp) e (by simp)⟩
      | cons x es =>
        rw [C37_commas sp _ (by simp) (fun p hp => ⟨hsep ';' (by decide) (by simp) p hp, hsep '\n' (by decide) (by simp) p hp,
          hsep ',' (by decide) (by simp) p hp⟩)]
        rw [List.map_cons, hclean e (by simp), List.map_map]
        congr 1
        conv => rhs; rw [← List.map_id (x :: es)]
        refine List.map_congr_left fun y hy => ?_
        have hy' : y ∈ e :: x :: es := List.mem_cons_of_mem _ hy
        have := hclean y hy'
        show strip sp (' ' :: y) = y
        rw [← this]
        conv => rhs; rw [← this]
        simp [strip, lstrip, List.dropWhile_cons, hsp]
  simp only [targets, hl]

/-- C56. A single name is not trimmed: with the text `" html"` the target is `". html"`, for which there is no builder. -/
theorem C56_single_not_trimmed : targets asciiSp (some (.text " html".toList)) none = [". html".toList] ∧
    ". html".toList ∉ supported := by decide

/-! ### Builders and files -/

variable {tools : Tools} {env : Env} {root : Doc} {subs : List Doc} {tb : Table}

/-- C56. Preparing the builders of all documents fails exactly if a target is not supported or its conversion is not available. -/
theorem C56_impossible (he : EnvOk env) (hp : Project root (root :: subs)) :
    (Impossible tools root (root :: subs) → addTargetBuilders tools env root subs = .error .build) ∧
    (¬ Impossible tools root (root :: subs) → ∃ tb, addTargetBuilders tools env root subs = .ok tb) := by
  rcases addDocs_spec (tools := tools) he hp (root :: subs) [] inv_nil (fun _ h => h) with ⟨h1, h2⟩ | ⟨h1, tb, h2, -⟩
  · exact ⟨fun _ => h2, fun h => absurd ((bad_iff hp).1 h1) h⟩
  · exact ⟨fun h => absurd ((bad_iff hp).2 h) h1, fun _ => ⟨tb, h2⟩⟩

theorem added (he : EnvOk env) (hp : Project root (root :: subs)) (h : addTargetBuilders tools env root subs = .ok tb) :
    Inv tools env root (root :: subs) tb ∧
    ∀ d ∈ root :: subs, ∀ t ∈ d.targets, (t = ".epub".toList → d = root) → Has tb d t := by
  rcases addDocs_spec (tools := tools) he hp (root :: subs) [] inv_nil (fun _ h => h) with ⟨h1, h2⟩ | ⟨h1, tb', h2, h3, h4, h5⟩
  · unfold addTargetBuilders at h; rw [h2] at h; cases h
  · unfold addTargetBuilders at h; rw [h2] at h; cases h; exact ⟨h3, h5⟩

theorem get_iff (he : EnvOk env) (hp : Project root (root :: subs)) (h : addTargetBuilders tools env root subs = .ok tb)
    (d : Doc) (hd : d ∈ root :: subs) (dir : Path) (stem : Str) (ha : At d dir stem) (t : Str) (b : Builder) :
    (buildersOf tb d).get? t = some b ↔
      Wanted root d t ∧ b = ⟨t, decide (t ∉ d.targets), place env d dir stem t⟩ := by
  obtain ⟨hi, hall⟩ := added he hp h
  constructor
  · intro hg
    obtain ⟨h1, h2, h3⟩ := hi.sound d hd t b hg
    rw [make_eq env he d dir stem t ha h3] at h1
    exact ⟨h2, (Except.ok.inj h1).symm⟩
  · rintro ⟨hw, hb⟩
    have hhas : Has tb d t := by
      rcases hw with ⟨h1, h2⟩ | ⟨h1, h2⟩ | ⟨h1, h2⟩
      · exact hall d hd t h1 fun h => hp.distinct d hd root (by simp) (h2 h)
      · subst h1
        exact (hi.tex d hd (hall d hd _ h2 (fun h => absurd h (by decide)))).1
      · subst h1
        exact (hi.xhtml (hall root (by simp) _ h2 (fun _ => rfl))).1 d hd
    obtain ⟨b', hb'⟩ := Option.isSome_iff_exists.1 hhas
    obtain ⟨h1, h2, h3⟩ := hi.sound d hd t b' hb'
    rw [make_eq env he d dir stem t ha h3] at h1
    rw [hb', hb, ← Except.ok.inj h1]

/-- C56. Once the builders are prepared, the file of a target, given with or without its period, is where it belongs if the
target is listed or an intermediate of a listed one; other targets are not found. -/
theorem C56_target_filepath (he : EnvOk env) (hp : Project root (root :: subs))
    (h : addTargetBuilders tools env root subs = .ok tb) (d : Doc) (hd : d ∈ root :: subs) (dir : Path) (stem : Str)
    (ha : At d dir stem) (t : Str) (p : TargetPath) :
    targetFilepath (buildersOf tb d) t = some p ↔ Wanted root d (dotted t) ∧ p = place env d dir stem (dotted t) := by
  unfold targetFilepath
  rw [Option.map_eq_some_iff, dot_eq]
  constructor
  · rintro ⟨b, h1, h2⟩
    obtain ⟨h3, h4⟩ := (get_iff he hp h d hd dir stem ha _ _).1 h1
    subst h4
    exact ⟨h3, h2.symm⟩
  · rintro ⟨h1, h2⟩
    exact ⟨_, (get_iff he hp h d hd dir stem ha _ _).2 ⟨h1, rfl⟩, h2.symm⟩

theorem place_suffix (env : Env) (d : Doc) (dir : Path) (stem t : Str) (ha : At d dir stem) (ht : t ∈ known) :
    suffix (place env d dir stem t).full = t := by
  obtain ⟨n, rfl, h1, h2, h3, h4, h5⟩ := known_shape t ht
  have hdot : '.' ∉ n := by
    have : ∀ t ∈ known, '.' ∉ t.tail := by decide
    exact this _ ht
  obtain ⟨m, e, hsub, hn, hs⟩ := ha.split
  have hst : stem ≠ [] := by rcases hs with h | h; exacts [h.2.1, h.2.1]
  have hrel := ha.rel
  have e : (place env d dir stem ('.' :: n)).full =
      child ⟨(if '.' :: n ∈ d.targets then env.targetRoot else env.cachePath).abs,
        (if '.' :: n ∈ d.targets then env.targetRoot else env.cachePath).parts ++ [n] ++ dir.parts⟩ (stem ++ '.' :: n) := by
    simp [place, TargetPath.full, div, child, hrel]
  rw [e]
  exact suffix_ext _ stem n hst h1.1 hdot

/-- C56. All files of a document, by their extensions: there is one for each target with a builder, and no other. -/
theorem C56_target_filepaths (he : EnvOk env) (hp : Project root (root :: subs))
    (h : addTargetBuilders tools env root subs = .ok tb) (d : Doc) (hd : d ∈ root :: subs) (dir : Path) (stem : Str)
    (ha : At d dir stem) (t : Str) (p : TargetPath) :
    (targetFilepaths (buildersOf tb d)).get? t = some p ↔ Wanted root d t ∧ p = place env d dir stem t := by
  obtain ⟨hi, hall⟩ := added he hp h
  have hmap : ((buildersOf tb d).map fun kv => (suffix kv.2.out.full, kv.2.out)) =
      (buildersOf tb d).map fun kv => (kv.1, kv.2.out) := by
    refine List.map_congr_left fun kv hkv => ?_
    have hg := Dict.get?_of_mem _ (hi.nodup d hd) kv.1 kv.2 hkv
    obtain ⟨h1, h2⟩ := (get_iff he hp h d hd dir stem ha _ _).1 hg
    have h3 := (hi.sound d hd _ _ hg).2.2
    rw [h2]
    simp only
    rw [place_suffix env d dir stem _ ha h3]
  have hkeys : ((buildersOf tb d).map fun kv => (kv.1, kv.2.out)).map (·.1) = (buildersOf tb d).keys := by
    rw [List.map_map]; rfl
  have hget : ∀ (l : Builders), Dict.get? (l.map fun kv => (kv.1, kv.2.out)) t = (l.get? t).map (·.out) := by
    intro l
    induction l with
    | nil => rfl
    | cons kv l ih =>
      obtain ⟨k, v⟩ := kv
      simp only [List.map_cons, Dict.get?]
      split
      · rfl
      · exact ih
  have hupd : targetFilepaths (buildersOf tb d) = (buildersOf tb d).map fun kv => (kv.1, kv.2.out) := by
    unfold targetFilepaths
    rw [hmap]
    have := Dict.update_append_new ([] : Dict Str TargetPath) ((buildersOf tb d).map fun kv => (kv.1, kv.2.out))
      (by show ([] ++ List.map Prod.fst _ : List Str).Nodup; rw [List.nil_append, hkeys]; exact hi.nodup d hd)
    simpa using this
  rw [hupd, hget, Option.map_eq_some_iff]
  constructor
  · rintro ⟨b, h1, h2⟩
    obtain ⟨h3, h4⟩ := (get_iff he hp h d hd dir stem ha _ _).1 h1
    subst h4
    exact ⟨h3, h2.symm⟩
  · rintro ⟨h1, h2⟩
    exact ⟨_, (get_iff he hp h d hd dir stem ha _ _).2 ⟨h1, rfl⟩, h2.symm⟩

/-- C56. The order in which the sets of targets and the documents are gone through makes no difference. -/
theorem C56_order (he : EnvOk env) (hp : Project root (root :: subs)) (h : addTargetBuilders tools env root subs = .ok tb)
    (root' : Doc) (subs' : List Doc) (tb' : Table) (hp' : Project root' (root' :: subs'))
    (h' : addTargetBuilders tools env root' subs' = .ok tb') (hroot : root.src = root'.src)
    (hts : ∀ t, t ∈ root.targets ↔ t ∈ root'.targets)
    (d d' : Doc) (hd : d ∈ root :: subs) (hd' : d' ∈ root' :: subs') (hs : d.src = d'.src)
    (ht : ∀ t, t ∈ d.targets ↔ t ∈ d'.targets) (t : Str) :
    targetFilepath (buildersOf tb d) t = targetFilepath (buildersOf tb' d') t := by
  obtain ⟨dir, stem, ha⟩ := hp.at_ d hd
  have ha' : At d' dir stem := ⟨ha.good, ha.rel, by rw [← hs]; exact ha.split⟩
  have hw : ∀ t, Wanted root d t ↔ Wanted root' d' t := by
    intro t; simp only [Wanted, ht, hts, hs, hroot]
  have hpl : ∀ t, place env d dir stem t = place env d' dir stem t := by
    intro t; simp only [place, ht]
  apply Option.ext
  intro p
  rw [C56_target_filepath he hp h d hd dir stem ha, C56_target_filepath he hp' h' d' hd' dir stem ha', hw, hpl]

/-- C56. No two files of a project clash: documents with different directories or names (apart from the extension), and
different targets of a document, have different files. The cache is the directory `.cache` among those of the targets. -/
theorem C56_no_clash (he : EnvOk env) (hc : env.cachePath = child env.targetRoot ".cache".toList)
    (hp : Project root (root :: subs)) (h : addTargetBuilders tools env root subs = .ok tb)
    (d d' : Doc) (hd : d ∈ root :: subs) (hd' : d' ∈ root :: subs) (dir dir' : Path) (stem stem' : Str)
    (ha : At d dir stem) (ha' : At d' dir' stem') (t t' : Str) (p p' : TargetPath)
    (h1 : targetFilepath (buildersOf tb d) t = some p) (h2 : targetFilepath (buildersOf tb d') t' = some p')
    (hf : p.full = p'.full) : dotted t = dotted t' ∧ dir = dir' ∧ stem = stem' := by
  obtain ⟨hi, hall⟩ := added he hp h
  have kn : ∀ d ∈ root :: subs, ∀ t, ∀ p, targetFilepath (buildersOf tb d) t = some p → dotted t ∈ known := by
    intro d hd t p h1
    unfold targetFilepath at h1
    rw [Option.map_eq_some_iff] at h1
    obtain ⟨b, hb, -⟩ := h1
    exact (hi.sound d hd _ _ hb).2.2
  have k1 := kn d hd t p h1
  have k2 := kn d' hd' t' p' h2
  obtain ⟨w1, rfl⟩ := (C56_target_filepath he hp h d hd dir stem ha t p).1 h1
  obtain ⟨w2, rfl⟩ := (C56_target_filepath he hp h d' hd' dir' stem' ha' t' p').1 h2
  generalize dotted t = u at *
  generalize dotted t' = u' at *
  obtain ⟨m, rfl, m1, -, -, -, m5⟩ := known_shape u k1
  obtain ⟨m', rfl, m1', -, -, -, m5'⟩ := known_shape u' k2
  have r1 := ha.rel
  have r2 := ha'.rel
  have fin : ∀ (pre : List Str), pre ++ (m :: (dir.parts ++ [stem ++ '.' :: m])) = pre ++ (m' :: (dir'.parts ++ [stem' ++ '.' :: m'])) →
      '.' :: m = '.' :: m' ∧ dir = dir' ∧ stem = stem' := by
    intro pre hh
    have hh := List.append_cancel_left hh
    rw [List.cons.injEq] at hh
    obtain ⟨e1, e2⟩ := hh
    subst e1
    obtain ⟨e3, e4⟩ := List.append_inj' e2 rfl
    refine ⟨rfl, ?_, ?_⟩
    · obtain ⟨a, l⟩ := dir; obtain ⟨a', l'⟩ := dir'
      simp only at r1 r2 e3; subst r1 r2 e3; rfl
    · simpa using e4
  by_cases c1 : '.' :: m ∈ d.targets <;> by_cases c2 : '.' :: m' ∈ d'.targets <;>
    simp only [place, c1, c2, if_true, if_false, TargetPath.full, div, child, r1, r2, hc, List.tail_cons, Path.mk.injEq,
      List.append_assoc, List.cons_append, List.nil_append, true_and, Bool.false_eq_true] at hf
  · exact fin _ hf
  · have := List.append_cancel_left hf
    rw [List.cons.injEq] at this
    exact absurd this.1 m5
  · have := List.append_cancel_left hf
    rw [List.cons.injEq] at this
    exact absurd this.1.symm m5'
  · have := List.append_cancel_left hf
    rw [List.cons.injEq] at this
    exact fin [] this.2

/-! ### Included documents -/

theorem filter_lines (sp : Char → Bool) (hs : sp '/' = false) (ls : List (Str × Option (List Str)))
    (h : ∀ l ∈ ls, LineOf sp l.1 l.2) :
    ((ls.map (·.1)).filter fun l => decide (¬ (l ≠ [] ∧ l.all sp = true) ∧ l ≠ [])).map (strip sp) =
      (ls.filterMap (·.2)).map (List.intercalate ['/']) := by
  induction ls with
  | nil => rfl
  | cons l ls ih =>
    have ih := ih (fun l h' => h l (by simp [h']))
    obtain ⟨l, o⟩ := l
    cases h (l, o) (by simp) with
    | blank _ hb =>
      have : l.all sp = true := by simpa using hb
      rw [List.map_cons, List.filter_cons_of_neg, ih]
      · rfl
      · simp only [decide_eq_true_eq, this]
        rintro ⟨h1, h2⟩
        exact h1 ⟨h2, trivial⟩
    | path pre post comps h1 h2 hne hc h3 h4 =>
      have htext : List.intercalate ['/'] comps ≠ [] := by
        cases comps with
        | nil => exact absurd rfl hne
        | cons c cs =>
          have := (hc c (by simp)).1
          cases cs with
          | nil => simpa using this
          | cons d ds => simp [List.intercalate_cons_cons, this]
      have hnot : ¬ ((pre ++ List.intercalate ['/'] comps ++ post).all sp = true) := by
        intro hall
        cases ht : List.intercalate ['/'] comps with
        | nil => exact htext ht
        | cons c t =>
          rw [ht] at h3 hall
          simp only [List.head?_cons, Option.all_some, decide_eq_true_eq] at h3
          have := List.all_eq_true.1 hall c (by simp)
          rw [h3] at this; cases this
      rw [List.map_cons, List.filter_cons_of_pos, List.map_cons, ih]
      · have e := strip_clean sp pre post _ h1 h2 h3 h4 htext
        show strip sp (pre ++ List.intercalate ['/'] comps ++ post) :: _ = List.intercalate ['/'] comps :: _
        rw [e]
      · simp only [decide_eq_true_eq]
        exact ⟨fun h => hnot h.2, by simp [htext]⟩

theorem parse_comps (comps : List Str) (hne : comps ≠ []) (hc : ∀ c ∈ comps, IsName c) :
    parse (List.intercalate ['/'] comps) = ⟨false, comps⟩ := by
  have := parse_toStr ⟨false, comps⟩ hc
  simpa [toStr, hne, LabelText.join_eq_intercalate] using this

theorem includePaths_eq (src : SourcePath) (hr : Good src.root) (dir : Path) (n : Str) (hd : Good dir) (hrel : dir.abs = false)
    (hsub : src.sub = child dir n) (css : List (List Str)) (h : ∀ comps ∈ css, comps ≠ [] ∧ ∀ c ∈ comps, IsName c) :
    includePaths src (css.map (List.intercalate ['/'])) = .ok (css.map fun comps => ⟨src.root, ⟨false, dir.parts ++ comps⟩⟩) := by
  induction css with
  | nil => rfl
  | cons comps css ih =>
    have hc := h comps (by simp)
    have e1 : mkSource (toStr src.root) (toStr (div (parent src.sub) (parse (List.intercalate ['/'] comps)))) =
        .ok ⟨src.root, ⟨false, dir.parts ++ comps⟩⟩ := by
      rw [parse_comps comps hc.1 hc.2, hsub, parent_child, div_rel _ _ rfl, hrel]
      refine mkSource_rel _ _ hr ?_ rfl
      intro c hcm
      rcases List.mem_append.1 hcm with hcm | hcm
      · exact hd c hcm
      · exact hc.2 c hcm
    simp only [List.map_cons, includePaths, e1, ih (fun c h' => h c (by simp [h']))]

/-- C56. The lines of the entry are paths relative to the directory of the document; blank lines and the space around a path do
not count. The entry `include` comes before the entry `includes`. -/
theorem C56_includes (sp : Char → Bool) (hs : sp '/' = false) (src : SourcePath) (hr : Good src.root) (dir : Path) (n : Str)
    (hd : Good dir) (hrel : dir.abs = false) (hsub : src.sub = child dir n) (ls : List (Str × Option (List Str))) (hne : ls ≠ [])
    (h : ∀ l ∈ ls, LineOf sp l.1 l.2 ∧ '\n' ∉ l.1) (e' : Option Include) :
    includes sp src (some (.text (List.intercalate ['\n'] (ls.map (·.1))))) e' =
      .ok ((ls.filterMap (·.2)).map fun comps => ⟨src.root, ⟨false, dir.parts ++ comps⟩⟩) ∧
    includes sp src none (some (.text (List.intercalate ['\n'] (ls.map (·.1))))) =
      .ok ((ls.filterMap (·.2)).map fun comps => ⟨src.root, ⟨false, dir.parts ++ comps⟩⟩) := by
  have key : includePaths src (((split ['\n'] (List.intercalate ['\n'] (ls.map (·.1)))).filter fun l =>
      ¬ (l ≠ [] ∧ l.all sp = true) ∧ l ≠ []).map (strip sp)) =
      .ok ((ls.filterMap (·.2)).map fun comps => ⟨src.root, ⟨false, dir.parts ++ comps⟩⟩) := by
    rw [← LabelText.join_eq_intercalate, split_join '\n' _ (by simpa using hne) (by
      intro p hp
      obtain ⟨l, hl, rfl⟩ := List.mem_map.1 hp
      exact (h l hl).2), filter_lines sp hs ls (fun l hl => (h l hl).1)]
    refine includePaths_eq src hr dir n hd hrel hsub _ ?_
    intro comps hc
    obtain ⟨l, hl, ho⟩ := List.mem_filterMap.1 hc
    have := (h l hl).1
    rw [ho] at this
    generalize l.1 = q at this
    cases this with
    | path pre post _ h1 h2 h3 h4 h5 h6 => exact ⟨h3, h4⟩
  exact ⟨key, key⟩

/-- C56. Without an entry, or with an entry that is not text, nothing is included. -/
theorem C56_no_includes (sp : Char → Bool) (src : SourcePath) (e' : Option Include) :
    includes sp src none none = .ok [] ∧ includes sp src (some .other) e' = .ok [] ∧ includes sp src none (some .other) = .ok [] :=
  ⟨rfl, rfl, rfl⟩

/-- C56. An absolute path is an error. -/
theorem C56_absolute_include (sp : Char → Bool) (hs : sp '/' = false) (src : SourcePath) (c : Char) (t : Str)
    (hn : '\n' ∉ c :: t) (hl : ((c :: t).getLast?).all (sp · = false)) (e' : Option Include) :
    includes sp src (some (.text ('/' :: c :: t))) e' = .error .assertion := by
  have hsplit : split ['\n'] ('/' :: c :: t) = ['/' :: c :: t] := split_char_none _ _ (by
    intro h
    rcases List.mem_cons.1 h with h | h
    · exact absurd h (by decide)
    · exact hn h)
  have hst : strip sp ('/' :: c :: t) = '/' :: c :: t := by
    have := strip_clean sp [] [] ('/' :: c :: t) (by simp) (by simp) (by simp [hs]) (by
      rw [List.getLast?_cons_cons]; exact hl) (by simp)
    simpa using this
  have hp : (parse ('/' :: c :: t)).abs = true := rfl
  simp only [includes, hsplit]
  rw [List.filter_cons_of_pos (by simp [hs]), List.filter_nil, List.map_cons, List.map_nil, hst]
  have e : div (parent src.sub) (parse ('/' :: c :: t)) = parse ('/' :: c :: t) := by simp [div, hp]
  simp only [includePaths, e, mkSource]
  rw [if_pos]
  generalize parse ('/' :: c :: t) = q at hp
  simp [toStr, hp, parse]

/-! ### Concrete cases -/

/-- A project with three documents. -/
def envA : Env := ⟨parse "/p".toList, parse "/p/.cache".toList, some "media".toList⟩
def docA : Doc := ⟨⟨parse "/p/src".toList, parse "a.dm".toList⟩, [".pdf".toList, ".html".toList, ".epub".toList]⟩
def docB : Doc := ⟨⟨parse "/p/src".toList, parse "sub/b.dm".toList⟩, [".html".toList, ".epub".toList]⟩
def docC : Doc := ⟨⟨parse "/p/src".toList, parse "c".toList⟩, []⟩

example : targets asciiSp (some (.text "html, pdf, .epub, html".toList)) none = [".html".toList, ".pdf".toList, ".epub".toList] ∧
    targets asciiSp (some (.text "none".toList)) (some (.text "html".toList)) = [] := by decide

theorem envA_ok : EnvOk envA := ⟨by unfold Good IsName; decide, by unfold Good IsName; decide, by decide⟩

theorem project_abc : Project docA [docA, docB, docC] where
  root_mem := by simp
  distinct := by decide
  at_ := by
    intro d hd
    simp only [List.mem_cons, List.not_mem_nil, or_false] at hd
    rcases hd with rfl | rfl | rfl
    · exact ⟨⟨false, []⟩, "a".toList, by simp [Good], rfl, "a.dm".toList, "dm".toList, rfl, by unfold IsName; decide,
        .inl (by decide)⟩
    · exact ⟨⟨false, ["sub".toList]⟩, "b".toList, by unfold Good IsName; decide, rfl, "b.dm".toList, "dm".toList, rfl,
        by unfold IsName; decide, .inl (by decide)⟩
    · refine ⟨⟨false, []⟩, "c".toList, by simp [Good], rfl, "c".toList, [], rfl, by unfold IsName; decide,
        .inr ⟨rfl, by decide, rfl, ?_⟩⟩
      intro a b h _
      have := congrArg (fun l => decide ('.' ∈ l)) h
      simp at this
  dots := by decide

example : ¬ Impossible ⟨true, true⟩ docA [docA, docB, docC] := by
  rintro (h | ⟨-, h⟩ | ⟨-, h⟩)
  · revert h; decide
  · cases h
  · cases h

/-- C56. A document other than the root document that lists `.epub` has no file for it; the intermediate `.xhtml` files of all
documents are in the cache. -/
theorem C56_epub_of_root : ∀ tb, addTargetBuilders ⟨true, true⟩ envA docA [docB, docC] = .ok tb →
    targetFilepath (buildersOf tb docB) ".epub".toList = none ∧
    (targetFilepath (buildersOf tb docB) "html".toList).map (fun p => toStr p.full) = some "/p/html/sub/b.html".toList ∧
    (targetFilepath (buildersOf tb docA) "tex".toList).map (fun p => toStr p.full) = some "/p/.cache/tex/a.tex".toList ∧
    (targetFilepath (buildersOf tb docC) "xhtml".toList).map (fun p => toStr p.full) = some "/p/.cache/xhtml/c.xhtml".toList := by
  intro tb h
  cases h
  decide

/-- C56. Documents whose names differ in the extension only have the same files. -/
theorem C56_same_stem : ∀ tb, addTargetBuilders ⟨true, true⟩ envA ⟨⟨parse "/p/src".toList, parse "a.dm".toList⟩, [".html".toList]⟩
      [⟨⟨parse "/p/src".toList, parse "a.txt".toList⟩, [".html".toList]⟩] = .ok tb →
    targetFilepath (buildersOf tb ⟨⟨parse "/p/src".toList, parse "a.dm".toList⟩, [".html".toList]⟩) ".html".toList =
      targetFilepath (buildersOf tb ⟨⟨parse "/p/src".toList, parse "a.txt".toList⟩, [".html".toList]⟩) ".html".toList ∧
    (targetFilepath (buildersOf tb ⟨⟨parse "/p/src".toList, parse "a.dm".toList⟩, [".html".toList]⟩) ".html".toList).isSome := by
  intro tb h
  cases h
  decide

/-- C56. A path with `..` is not simplified: from `sub/b.dm`, the line `../a.dm` gives `sub/../a.dm`, which is not the path `a.dm`. -/
theorem C56_include_not_simplified :
    (includes asciiSp docB.src (some (.text "\n  ../a.dm \n\nc.dm".toList)) none).toOption.map
      (fun l => l.map fun s => toStr s.sub) = some ["sub/../a.dm".toList, "sub/c.dm".toList] := by decide

example : LineOf asciiSp "  ../a.dm ".toList (some ["..".toList, "a.dm".toList]) :=
  LineOf.path (sp := asciiSp) "  ".toList " ".toList ["..".toList, "a.dm".toList] (by decide) (by decide) (by decide) (by unfold IsName; decide) (by decide) (by decide)

end Verif.Targets
