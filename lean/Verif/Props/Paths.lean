import Verif.Lemmas.PathsOut

/-! # Properties of the paths: C32 to C35 -/

namespace Verif.Paths

open Verif Verif.Utils

/-! ## C32: changing a part of a path -/

/-- The text of a path is read back as the path. -/
theorem C32_text (p : Path) (h : Good p) : parse (toStr p) = p := parse_toStr p h

/-- Every name has exactly one stem and extension. -/
theorem C32_splits (n : Str) (hn : n ≠ []) :
    ∃ st e, Splits n st e ∧ ∀ st' e', Splits n st' e' → st' = st ∧ e' = e := by
  obtain ⟨st, e, h⟩ := splits_exists n hn
  refine ⟨st, e, h, ?_⟩
  intro st' e' h'
  rcases h with ⟨e1, h1, h2, h3⟩ | ⟨e1, h1, h2, h3⟩
  · rcases h' with ⟨e1', h1', h2', h3'⟩ | ⟨e1', h1', h2', h3'⟩
    · have a := (lastDot_some n st e).2 ⟨e1, h3⟩
      have b := (lastDot_some n st' e').2 ⟨e1', h3'⟩
      rw [a] at b
      simp only [Option.some.injEq, Prod.mk.injEq] at b
      exact ⟨b.1.symm, b.2.symm⟩
    · rcases h3' st e e1 h3 with h | h
      · exact absurd h h1
      · exact absurd h h2
  · rcases h' with ⟨e1', h1', h2', h3'⟩ | ⟨e1', h1', h2', h3'⟩
    · rcases h3 st' e' e1' h3' with h | h
      · exact absurd h h1'
      · exact absurd h h2'
    · exact ⟨by rw [← e1', e1], by rw [h2, h2']⟩

/-- `rename` changes the file name, appends to it and changes the extension, as requested: the directory stays,
and so do the stem and the extension for which no replacement is given. -/
theorem C32_rename (d : Path) (n st e : Str) (h : Splits n st e) (filename append extension : Option Str)
    (hn : IsName (filename.getD st ++ append.getD [] ++ dotted (extension.getD ('.' :: e)))) :
    rename (child d n) filename append extension =
      child d (filename.getD st ++ append.getD [] ++ dotted (extension.getD ('.' :: e))) :=
  rename_splits d n st e h filename append extension hn

example : Splits "ch1.1_file.png".toList "ch1.1_file".toList "png".toList :=
  Or.inl ⟨by decide, by decide, by decide, by decide⟩

example : rename (parse "/tmp/ch1.1_file.png".toList) (some "test".toList) (some "_crop2".toList) (some "svg".toList)
    = parse "/tmp/test_crop2.svg".toList := by decide

/-- A name without extension gets a period: `rename` without arguments is not the identity, although the
documentation of `generate_outfilepath` shows `2to3` kept as it is. -/
theorem C32_rename_adds_period (d : Path) (n : Str) (h : NoExt n) (hn : IsName n) :
    rename (child d n) none none none = child d (n ++ ['.']) := by
  have hs : Splits n n [] := Or.inr ⟨rfl, hn.1, rfl, h⟩
  have := rename_splits d n n [] hs none none none (outName n n [] hs hn none none (by simp) (by simp))
  simpa [dotted] using this

example : NoExt "2to3".toList ∧ IsName "2to3".toList :=
  ⟨fun a b e _ => by
    exfalso
    have : '.' ∈ "2to3".toList := by rw [e]; simp
    exact absurd this (by decide), by unfold IsName; decide⟩

/-- `use_subpath` replaces the subpath and keeps the root; an absolute subpath is refused. -/
theorem C32_use_subpath (s : SourcePath) (hr : Good s.root) (sub : Str) :
    s.useSubpath sub = if sub.head? = some '/' then .error .assertion else .ok ⟨s.root, parse sub⟩ := by
  simp only [SourcePath.useSubpath, mkSource, parse_toStr s.root hr]
  by_cases h : sub.head? = some '/' <;> simp [parse, h]

/-- The same for target paths, where the target is kept as well. -/
theorem C32_use_subpath_target (t : TargetPath) (hr : Good t.root) (ht : Good t.target) (hc : CleanTarget t.target)
    (sub : Str) :
    t.useSubpath sub = if sub.head? = some '/' then .error .assertion else .ok ⟨t.root, t.target, parse sub⟩ := by
  simp only [TargetPath.useSubpath, mkTarget, parse_toStr t.root hr, stripDots_target t.target ht hc]
  by_cases h : sub.head? = some '/' <;> simp [parse, h]

/-- Only the last `use_subpath` counts. -/
theorem C32_use_subpath_last (s s' : SourcePath) (hr : Good s.root) (sub sub' : Str)
    (h : s.useSubpath sub = .ok s') : s'.useSubpath sub' = s.useSubpath sub' := by
  rw [C32_use_subpath s hr] at h
  split at h
  · cases h
  · cases h
    exact (C32_use_subpath ⟨s.root, parse sub⟩ hr sub').trans (C32_use_subpath s hr sub').symm

theorem C32_use_subpath_last_target (t t' : TargetPath) (hr : Good t.root) (ht : Good t.target)
    (hc : CleanTarget t.target) (sub sub' : Str) (h : t.useSubpath sub = .ok t') :
    t'.useSubpath sub' = t.useSubpath sub' := by
  rw [C32_use_subpath_target t hr ht hc] at h
  split at h
  · cases h
  · cases h
    exact (C32_use_subpath_target ⟨t.root, t.target, parse sub⟩ hr ht hc sub').trans
      (C32_use_subpath_target t hr ht hc sub').symm

/-- `use_name` replaces the name and keeps the root and the directory. -/
theorem C32_use_name (root d : Path) (m n : Str) (hr : Good root) (hd : Good d) (hrel : d.abs = false) (hm : m ≠ [])
    (hn : IsName n) : SourcePath.useName ⟨root, child d m⟩ n = .ok ⟨root, child d n⟩ := by
  simp only [SourcePath.useName, withName_child d m n hm hn]
  exact mkSource_rel root (child d n) hr (good_child d n hd hn) hrel

theorem C32_use_name_target (root target d : Path) (m n : Str) (hr : Good root) (ht : Good target)
    (hc : CleanTarget target) (hd : Good d) (hrel : d.abs = false) (hm : m ≠ []) (hn : IsName n) :
    TargetPath.useName ⟨root, target, child d m⟩ n = .ok ⟨root, target, child d n⟩ := by
  simp only [TargetPath.useName, withName_child d m n hm hn]
  exact mkTarget_rel root target (child d n) hr ht hc (good_child d n hd hn) hrel

/-- Without a name there is nothing to replace. -/
theorem C32_use_name_empty (root : Path) (n : Str) (a : Bool) :
    SourcePath.useName ⟨root, ⟨a, []⟩⟩ n = .error .value := by rfl

theorem withSuffix_splits (d : Path) (n st e x : Str) (h : Splits n st e)
    (h1 : '/' ∉ x) (h2 : x = [] ∨ x.head? = some '.') (h3 : x ≠ ['.']) :
    withSuffix (child d n) x = .ok (child d (st ++ x)) := by
  rcases h with ⟨rfl, a, b, c⟩ | ⟨rfl, a, rfl, c⟩
  · exact withSuffix_ext d st e x a b c h1 h2 h3
  · exact withSuffix_noext d n x a c h1 h2 h3

theorem splits_name (n st e x : Str) (h : Splits n st e) (hn : IsName n) (h1 : '/' ∉ x)
    (h2 : x = [] ∨ x.head? = some '.') (h4 : st ++ x ≠ ['.']) : IsName (st ++ x) := by
  have hst : st ≠ [] := by rcases h with h | h <;> exact h.2.1
  have hs := splits_slash n st e h hn.2.2
  exact ⟨by simp [hst], h4, by simp [hs.1, h1]⟩

/-- `use_suffix` replaces the extension, keeping the root, the directory and the stem; an empty suffix removes
the extension. -/
theorem C32_use_suffix (root d : Path) (n st e x : Str) (hr : Good root) (hd : Good d) (hrel : d.abs = false)
    (hn : IsName n) (h : Splits n st e) (h1 : '/' ∉ x) (h2 : x = [] ∨ x.head? = some '.') (h3 : x ≠ ['.'])
    (h4 : st ++ x ≠ ['.']) :
    SourcePath.useSuffix ⟨root, child d n⟩ x = .ok ⟨root, child d (st ++ x)⟩ := by
  simp only [SourcePath.useSuffix, withSuffix_splits d n st e x h h1 h2 h3]
  exact mkSource_rel root (child d (st ++ x)) hr (good_child d _ hd (splits_name n st e x h hn h1 h2 h4)) hrel

theorem C32_use_suffix_target (root target d : Path) (n st e x : Str) (hr : Good root) (ht : Good target)
    (hc : CleanTarget target) (hd : Good d) (hrel : d.abs = false)
    (hn : IsName n) (h : Splits n st e) (h1 : '/' ∉ x) (h2 : x = [] ∨ x.head? = some '.') (h3 : x ≠ ['.'])
    (h4 : st ++ x ≠ ['.']) :
    TargetPath.useSuffix ⟨root, target, child d n⟩ x = .ok ⟨root, target, child d (st ++ x)⟩ := by
  simp only [TargetPath.useSuffix, withSuffix_splits d n st e x h h1 h2 h3]
  exact mkTarget_rel root target (child d (st ++ x)) hr ht hc
    (good_child d _ hd (splits_name n st e x h hn h1 h2 h4)) hrel

/-- A suffix that is just a period, has no period in front or contains a slash is refused. -/
theorem C32_use_suffix_refused (s : SourcePath) (x : Str)
    (h : '/' ∈ x ∨ (x ≠ [] ∧ x.head? ≠ some '.') ∨ x = ['.'] ∨ s.sub.parts = []) :
    s.useSuffix x = .error .value := by
  have : withSuffix s.sub x = .error .value := by
    unfold withSuffix
    rcases h with h | h | h | h
    · rw [if_pos h]
    · split
      · rfl
      · rw [if_pos (Or.inl h)]
    · split
      · rfl
      · rw [if_pos (Or.inr h)]
    · have hn : name s.sub = [] := by simp [name, h]
      split
      · rfl
      · split
        · rfl
        · simp [hn]
  simp only [SourcePath.useSuffix, this]
  rfl

/-- After `use_suffix(x)`, the suffix is `x`: for a suffix with a single period. The full statement, for every
accepted `x`, is false (`C32_use_suffix_refuted`). -/
theorem C32_use_suffix_reads_partial (root d : Path) (n st e x : Str) (hr : Good root) (hd : Good d)
    (hrel : d.abs = false) (hn : IsName n) (h : Splits n st e) (hx : IsExt x) :
    ∃ s, SourcePath.useSuffix ⟨root, child d n⟩ ('.' :: x) = .ok s ∧ suffix s.sub = '.' :: x ∧ stem s.sub = st := by
  have hst : st ≠ [] := by rcases h with h | h <;> exact h.2.1
  refine ⟨⟨root, child d (st ++ '.' :: x)⟩, ?_, ?_, ?_⟩
  · refine C32_use_suffix root d n st e ('.' :: x) hr hd hrel hn h ?_ (Or.inr rfl) ?_ ?_
    · simp [hx.2.2]
    · simp [hx.1]
    · intro he
      have := congrArg List.length he
      simp at this
      exact hx.1 (List.eq_nil_of_length_eq_zero (by omega))
  · exact suffix_ext d st x hst hx.1 hx.2.1
  · exact stem_ext d st x hst hx.1 hx.2.1

example : IsExt "pdf".toList := by unfold IsExt; decide

/-- The suffix `.tar.gz` is accepted, but the suffix is then `.gz`; and removing the suffix of `a.b.c` leaves the
suffix `.b`. -/
theorem C32_use_suffix_refuted :
    (∃ s, SourcePath.useSuffix ⟨parse "src".toList, parse "a.txt".toList⟩ ".tar.gz".toList = .ok s ∧
      suffix s.sub = ".gz".toList) ∧
    (∃ s, SourcePath.useSuffix ⟨parse "src".toList, parse "a.b.c".toList⟩ [] = .ok s ∧
      suffix s.sub = ".b".toList) :=
  ⟨⟨_, rfl, by decide⟩, ⟨_, rfl, by decide⟩⟩

/-- A target that is not clean is changed by `use_subpath`: the target of `html./` is `html.`, and `html`
afterwards. -/
theorem C32_target_changes :
    ∃ t t', mkTarget [] "html./".toList "a".toList = .ok t ∧ t.useSubpath "b".toList = .ok t' ∧
      t.target = parse "html.".toList ∧ t'.target = parse "html".toList :=
  ⟨_, _, rfl, rfl, by decide, by decide⟩

example : CleanTarget (parse "html".toList) := ⟨by decide, Or.inr ⟨by decide, by decide⟩⟩

/-! ## C33: finding files -/

/-- Without raising, `find_file` gives the first of the locations (the path itself, then the search paths in
order) with a file, and nothing if there is none. If the path itself is a file, the path is given back as it
is. Locations that cannot be read count as empty. -/
theorem C33_find (sp brk : Char → Bool) (isFile : Path → Except PathError Bool) (path : PyPath)
    (hp : Good path.full) (paths : List PyPath) (hps : ∀ p ∈ paths, GoodPy p) :
    ∃ r, findFile sp brk isFile (.path path) paths false = .ok r ∧
      r.map PyPath.full = (locations path.full paths).find? (isThere isFile) ∧
      (isThere isFile path.full = true → r = some path) :=
  findPath_quiet isFile path hp paths hps

/-- What is neither a text nor a path is not found. -/
theorem C33_not_a_path (sp brk : Char → Bool) (isFile : Path → Except PathError Bool) (paths : List PyPath) :
    findFile sp brk isFile .other paths true = .error .notFound ∧ findFile sp brk isFile .other paths false = .ok none := ⟨rfl, rfl⟩

/-- What is found exists, and comes from the first search path that has it. -/
theorem C33_found (sp brk : Char → Bool) (isFile : Path → Except PathError Bool) (path : PyPath)
    (hp : Good path.full) (paths : List PyPath) (hps : ∀ p ∈ paths, GoodPy p) (r : PyPath)
    (h : findFile sp brk isFile (.path path) paths false = .ok (some r)) :
    isFile r.full = .ok true ∧
    (r = path ∨ (isFile path.full ≠ .ok true ∧
      ∃ before p after, paths = before ++ p :: after ∧ r.full = div p.full path.full ∧
        ∀ q ∈ before, isFile (div q.full path.full) ≠ .ok true)) := by
  obtain ⟨r', h1, h2, h3⟩ := C33_find sp brk isFile path hp paths hps
  rw [h] at h1
  have hr : r' = some r := (Except.ok.inj h1).symm
  subst hr
  have hth : ∀ l, isThere isFile l = true ↔ isFile l = .ok true := by
    intro l
    unfold isThere
    cases isFile l with
    | error e => simp
    | ok b => cases b <;> simp
  have h2 : (locations path.full paths).find? (isThere isFile) = some r.full := h2.symm
  have hex := List.find?_some h2
  refine ⟨(hth _).1 hex, ?_⟩
  by_cases hpath : isThere isFile path.full = true
  · left; exact Option.some.inj (h3 hpath)
  · right
    refine ⟨fun e => hpath ((hth _).2 e), ?_⟩
    unfold locations at h2
    rw [List.find?_cons_of_neg hpath] at h2
    obtain ⟨_, as, bs, e, hno⟩ := List.find?_eq_some_iff_append.1 h2
    obtain ⟨l1, l2, rfl, e1, e2⟩ := List.map_eq_append_iff.1 e
    cases l2 with
    | nil => simp at e2
    | cons p l2 =>
      simp only [List.map_cons, List.cons.injEq] at e2
      refine ⟨l1, p, l2, rfl, e2.1.symm, ?_⟩
      intro q hq hf
      have := hno (div q.full path.full) (by rw [← e1]; exact List.mem_map.2 ⟨q, hq, rfl⟩)
      rw [(hth _).2 hf] at this
      simp at this

/-- With raising, a missing file is an error, and so is a location that cannot be read before the file is
found. -/
theorem C33_raises (sp brk : Char → Bool) (isFile : Path → Except PathError Bool) (path : PyPath)
    (hp : Good path.full) (paths : List PyPath) (hps : ∀ p ∈ paths, GoodPy p) :
    match (locations path.full paths).find? (isHit isFile) with
    | none => findFile sp brk isFile (.path path) paths true = .error .notFound
    | some l =>
      match isFile l with
      | .ok _ => ∃ c, findFile sp brk isFile (.path path) paths true = .ok (some c) ∧ c.full = l
      | .error e => findFile sp brk isFile (.path path) paths true = .error e :=
  findPath_raising isFile path hp paths hps

/-- With raising, nothing is never given back. -/
theorem C33_raises_or_finds (sp brk : Char → Bool) (isFile : Path → Except PathError Bool) (path : PyPath)
    (hp : Good path.full) (paths : List PyPath) (hps : ∀ p ∈ paths, GoodPy p) :
    findFile sp brk isFile (.path path) paths true ≠ .ok none := by
  have h := C33_raises sp brk isFile path hp paths hps
  intro e
  cases hf : (locations path.full paths).find? (isHit isFile) with
  | none => simp only [hf] at h; rw [h] at e; cases e
  | some l =>
    simp only [hf] at h
    cases hl : isFile l with
    | error x => simp only [hl] at h; rw [h] at e; cases e
    | ok b =>
      simp only [hl] at h
      obtain ⟨c, h1, _⟩ := h
      rw [h1] at e; cases e

/-- A text stands for the path on its first line, without the spaces around the text. -/
theorem C33_text (sp brk : Char → Bool) (isFile : Path → Except PathError Bool) (s : Str) (paths : List PyPath)
    (raising : Bool) :
    findFile sp brk isFile (.text s) paths raising =
      findFile sp brk isFile (.path (.plain (parse ((splitlines brk (strip sp s)).head?.getD [])))) paths raising :=
  rfl

/-- In a source path the file found keeps the root: only its subpath grows. -/
theorem C33_tracked (isFile : Path → Except PathError Bool) (s : SourcePath) (hs : GoodPy (.source s))
    (path : Path) (hg : Good path) (hrel : path.abs = false) (raising : Bool) (rest : List PyPath)
    (h0 : isFile path = .ok false) (h1 : isFile (div s.full path) = .ok true) :
    findPath isFile (.plain path) (.source s :: rest) raising = .ok (some (.source ⟨s.root, div s.sub path⟩)) := by
  obtain ⟨g1, g2, g3⟩ := hs
  have hd := good_div s.sub path g2 hg
  have ha : (div s.sub path).abs = false := by simp [div, hrel, g3]
  have hfull : (PyPath.source ⟨s.root, div s.sub path⟩).full = div s.full path := by
    simp only [PyPath.full, SourcePath.full, div_assoc]
  have hc : candidate (.source s) path = .ok (.source ⟨s.root, div s.sub path⟩) := by
    simp only [candidate, SourcePath.useSubpath, mkSource_rel s.root _ g1 hd ha]; rfl
  have hdot : (PyPath.plain (div (parse ['.']) path)).full = path := div_dot path hrel
  have e0 : (PyPath.plain path).full = path := rfl
  unfold findPath
  simp only [e0, h0, hrel, Bool.false_eq_true, if_false]
  unfold searchLoop
  simp only [candidate, hdot, h0]
  unfold searchLoop
  simp only [hc, hfull, h1]

/-- `find_files` finds the file of every line that has one, in order, and ignores the other lines. -/
theorem C33_files (sp brk : Char → Bool) (isFile : Path → Except PathError Bool) (s : Str) (paths : List PyPath)
    (hps : ∀ p ∈ paths, GoodPy p) :
    ∃ r, findFiles sp brk isFile s paths = .ok r ∧
      r.map PyPath.full = ((splitlines brk (strip sp s)).filter fun l => l ≠ []).filterMap fun l =>
        (locations (parse ((splitlines brk (strip sp l)).head?.getD [])) paths).find? (isThere isFile) := by
  unfold findFiles
  induction splitlines brk (strip sp s) with
  | nil => exact ⟨[], rfl, rfl⟩
  | cons l ls ih =>
    obtain ⟨r, h1, h2⟩ := ih
    unfold filesLoop
    by_cases hl : l = []
    · rw [if_pos hl]
      exact ⟨r, h1, by rw [List.filter_cons_of_neg (by simpa using hl)]; exact h2⟩
    · rw [if_neg hl, List.filter_cons_of_pos (by simpa using hl)]
      obtain ⟨x, h3, h4, _⟩ := findPath_quiet isFile (.plain (parse (firstLine sp brk l))) (parse_good _) paths hps
      have h3' : findFile sp brk isFile (.text l) paths false = .ok x := h3
      rw [h3', List.filterMap_cons]
      have h4 : _ = (locations (parse ((splitlines brk (strip sp l)).head?.getD [])) paths).find? (isThere isFile) := h4
      rw [← h4]
      cases x with
      | none => exact ⟨r, h1, h2⟩
      | some c =>
        refine ⟨c :: r, by simp only [h1], ?_⟩
        simp only [List.map_cons, Option.map_some, h2]

/-- A file found beside the document, before the project root. -/
example : (findFile (· = ' ') (· = '\n')
      (fun p => .ok (p = parse "/p/src/sub/fig.png".toList ∨ p = parse "/p/src/fig.png".toList))
      (.text " fig.png\n".toList)
      [.source ⟨parse "/p/src".toList, parse "sub".toList⟩, .source ⟨parse "/p/src".toList, parse []⟩] true)
    = .ok (some (.source ⟨parse "/p/src".toList, parse "sub/fig.png".toList⟩)) := by rfl

example : GoodPy (.source ⟨parse "/p/src".toList, parse "sub".toList⟩) :=
  ⟨parse_good _, parse_good _, by decide⟩

/-- A search path obtained from a source path by a `pathlib` operation, like `.parent`, has lost its root: files
are looked for in a directory named `None`. -/
theorem C33_untracked_lost :
    (findFile (· = ' ') (· = '\n') (fun p => .ok (p = parse "/p/src/fig.png".toList)) (.text "fig.png".toList)
      [.untracked (parse "/p/src".toList)] false) = .ok none ∧
    (findFile (· = ' ') (· = '\n') (fun p => .ok (p = parse "None/fig.png".toList)) (.text "fig.png".toList)
      [.untracked (parse "/p/src".toList)] false)
      = .ok (some (.source ⟨parse "None".toList, parse "fig.png".toList⟩)) :=
  ⟨rfl, rfl⟩

/-! ## C34: the paths of output files -/

/-- The output for the first input path: the root is that of the targets or the cache, then the directory of the
target, then the subpath of the input, in the media directory if that is requested and the text of the subpath
does not start with it; the name keeps its stem, with the appended text and the extension. -/
theorem C34_placed (env : Env) (hr : Good env.targetRoot) (hc : Good env.cachePath)
    (others rest : List Param) (ho : ∀ o ∈ others, o = .other) (p : PyPath) (d : Path) (n st e : Str)
    (hp : HasSub p (child d n)) (hd : Good d) (hn : IsName n) (hs : Splits n st e)
    (target : Option Str) (dir : Path) (hdir : DirFor target p dir) (append ext : Option Str)
    (ha : '/' ∉ append.getD []) (hx : '/' ∉ ext.getD []) (useCache useMedia : Bool)
    (hm : (env.mediaPath.getD []).head? ≠ some '/') :
    generateOut env (others ++ .path p :: rest) target append ext useCache useMedia =
      .ok (some ⟨if useCache then env.cachePath else env.targetRoot, dir,
        child (if useMedia = true ∧ env.mediaPath.getD [] ≠ [] ∧ ¬ env.mediaPath.getD [] <+: toStr (child d n)
          then div (parse (env.mediaPath.getD [])) d else d)
          (st ++ append.getD [] ++ dotted (ext.getD ('.' :: e)))⟩) :=
  generateOut_eq env hr hc others rest ho p d n st e hp hd hn hs target dir hdir append ext ha hx useCache useMedia
    (by simpa [parse] using hm)

/-- Without an input path there is no output path. -/
theorem C34_none (env : Env) (params : List Param) (h : ∀ o ∈ params, o = .other) (target append ext : Option Str)
    (useCache useMedia : Bool) : generateOut env params target append ext useCache useMedia = .ok none := by
  have : pathParams params = [] := by
    induction params with
    | nil => rfl
    | cons o l ih =>
      have := h o (by simp)
      subst this
      exact ih (fun o h' => h o (by simp [h']))
  simp [generateOut, this]

/-- The output lies below the root, in the directory of the target. -/
theorem C34_below (env : Env) (hr : Good env.targetRoot) (hc : Good env.cachePath)
    (others rest : List Param) (ho : ∀ o ∈ others, o = .other) (p : PyPath) (d : Path) (n st e : Str)
    (hp : HasSub p (child d n)) (hd : Good d) (hn : IsName n) (hs : Splits n st e)
    (target : Option Str) (dir : Path) (hdir : DirFor target p dir) (append ext : Option Str)
    (ha : '/' ∉ append.getD []) (hx : '/' ∉ ext.getD []) (useCache useMedia : Bool)
    (hm : (env.mediaPath.getD []).head? ≠ some '/') :
    ∃ t, generateOut env (others ++ .path p :: rest) target append ext useCache useMedia = .ok (some t) ∧
      t.full.abs = (if useCache then env.cachePath else env.targetRoot).abs ∧
      (if useCache then env.cachePath else env.targetRoot).parts ++ dir.parts <+: t.full.parts := by
  have hrel : d.abs = false := (outSub_has p _ hp).2
  have hdr : dir.abs = false := by
    cases hdir with
    | named t p h1 h2 h3 => rfl
    | dotted t p h1 h2 h3 => rfl
    | input tp h1 h2 => exact h2.1
    | noneSource s => rfl
    | nonePlain q => rfl
  refine ⟨_, C34_placed env hr hc others rest ho p d n st e hp hd hn hs target dir hdir append ext ha hx useCache
    useMedia hm, ?_⟩
  have hsub : ∀ m : Str, (child (if useMedia = true ∧ env.mediaPath.getD [] ≠ [] ∧
      ¬ env.mediaPath.getD [] <+: toStr (child d n) then div (parse (env.mediaPath.getD [])) d else d) m).abs = false := by
    intro m
    show (ite _ _ _ : Path).abs = false
    by_cases hcond : useMedia = true ∧ env.mediaPath.getD [] ≠ [] ∧ ¬ env.mediaPath.getD [] <+: toStr (child d n)
    · rw [if_pos hcond, div_rel _ _ hrel]
      simpa [parse] using hm
    · rw [if_neg hcond]; exact hrel
  constructor
  · simp only [TargetPath.full]
    rw [div_rel _ _ (hsub _), div_rel _ _ hdr]
  · simp only [TargetPath.full]
    rw [div_rel _ _ (hsub _), div_rel _ _ hdr]
    exact List.prefix_append _ _

/-- With `use_media`, the output is in the media directory, unless the text of the subpath starts with the media
path without being in that directory (`C34_media_refuted`). -/
theorem C34_media_partial (env : Env) (hr : Good env.targetRoot) (hc : Good env.cachePath)
    (others rest : List Param) (ho : ∀ o ∈ others, o = .other) (p : PyPath) (d : Path) (n st e : Str)
    (hp : HasSub p (child d n)) (hd : Good d) (hn : IsName n) (hs : Splits n st e)
    (target : Option Str) (dir : Path) (hdir : DirFor target p dir) (append ext : Option Str)
    (ha : '/' ∉ append.getD []) (hx : '/' ∉ ext.getD []) (useCache : Bool)
    (media : Str) (hmedia : env.mediaPath = some media) (hne : media ≠ []) (hm : media.head? ≠ some '/')
    (hin : media <+: toStr (child d n) → (parse media).parts <+: d.parts) :
    ∃ t, generateOut env (others ++ .path p :: rest) target append ext useCache true = .ok (some t) ∧
      (parse media).parts <+: (parent t.sub).parts := by
  refine ⟨_, C34_placed env hr hc others rest ho p d n st e hp hd hn hs target dir hdir append ext ha hx useCache
    true (by simpa [hmedia] using hm), ?_⟩
  simp only [parent_child, hmedia, Option.getD_some, true_and]
  split
  · have hrel : d.abs = false := (outSub_has p _ hp).2
    rw [div_rel _ _ hrel]
    exact List.prefix_append _ _
  · rename_i h
    apply hin
    by_cases hpre : media <+: toStr (child d n)
    · exact hpre
    · exact absurd ⟨hne, hpre⟩ h

/-- Different inputs have different outputs: the output determines the directory and the stem of the subpath, and
the extension if it is kept. Both inputs are relative and treated alike with regard to the media directory. -/
theorem C34_injective_partial (env : Env) (hr : Good env.targetRoot) (hc : Good env.cachePath)
    (p p' : PyPath) (d d' : Path) (n n' st st' e e' : Str)
    (hp : HasSub p (child d n)) (hp' : HasSub p' (child d' n')) (hd : Good d) (hd' : Good d')
    (hn : IsName n) (hn' : IsName n') (hs : Splits n st e) (hs' : Splits n' st' e')
    (target : Option Str) (dir dir' : Path) (hdir : DirFor target p dir) (hdir' : DirFor target p' dir')
    (append ext : Option Str)
    (ha : '/' ∉ append.getD []) (hx : '/' ∉ ext.getD []) (useCache useMedia : Bool)
    (hm : (env.mediaPath.getD []).head? ≠ some '/')
    (hsame : useMedia = true → (env.mediaPath.getD [] <+: toStr (child d n) ↔ env.mediaPath.getD [] <+: toStr (child d' n')))
    (h : generateOut env [.path p] target append ext useCache useMedia =
      generateOut env [.path p'] target append ext useCache useMedia) :
    d = d' ∧ st = st' ∧ (ext = none → e = e') := by
  have e1 := C34_placed env hr hc [] [] (by simp) p d n st e hp hd hn hs target dir hdir append ext ha hx useCache
    useMedia hm
  have e2 := C34_placed env hr hc [] [] (by simp) p' d' n' st' e' hp' hd' hn' hs' target dir' hdir' append ext ha hx
    useCache useMedia hm
  simp only [List.nil_append] at e1 e2
  rw [e1, e2] at h
  have h := congrArg TargetPath.sub (Option.some.inj (Except.ok.inj h))
  simp only at h
  obtain ⟨h1, h2⟩ := child_inj _ _ _ _ h
  have hrel : d.abs = false := (outSub_has p _ hp).2
  have hrel' : d'.abs = false := (outSub_has p' _ hp').2
  have hdd : d = d' := by
    by_cases hc1 : useMedia = true ∧ env.mediaPath.getD [] ≠ [] ∧ ¬ env.mediaPath.getD [] <+: toStr (child d n)
    · have hc2 : useMedia = true ∧ env.mediaPath.getD [] ≠ [] ∧ ¬ env.mediaPath.getD [] <+: toStr (child d' n') :=
        ⟨hc1.1, hc1.2.1, fun h => hc1.2.2 ((hsame hc1.1).2 h)⟩
      rw [if_pos hc1, if_pos hc2, div_rel _ _ hrel, div_rel _ _ hrel'] at h1
      simp only [Path.mk.injEq, true_and, List.append_cancel_left_eq] at h1
      obtain ⟨a, l⟩ := d
      obtain ⟨a', l'⟩ := d'
      simp only at h1 hrel hrel'
      rw [h1, hrel, hrel']
    · have hc2 : ¬ (useMedia = true ∧ env.mediaPath.getD [] ≠ [] ∧ ¬ env.mediaPath.getD [] <+: toStr (child d' n')) :=
        fun h => hc1 ⟨h.1, h.2.1, fun h' => h.2.2 ((hsame h.1).1 h')⟩
      rw [if_neg hc1, if_neg hc2] at h1
      exact h1
  obtain ⟨h3, h4⟩ := outName_inj n st e n' st' e' hs hs' append ext h2
  exact ⟨hdd, h3, h4⟩

/-- Of an absolute input only the file name is used. -/
theorem C34_absolute (env : Env) (d : Path) (n : Str) (hn : IsName n) (habs : d.abs = true) (rest : List Param)
    (target append ext : Option Str) (useCache useMedia : Bool) :
    generateOut env (.path (.plain (child d n)) :: rest) target append ext useCache useMedia =
      generateOut env (.path (.plain ⟨false, [n]⟩) :: rest) target append ext useCache useMedia := by
  have e1 : outSub (.plain (child d n)) = some ⟨false, [n]⟩ := by
    simp [outSub, child, habs, name, parse_name n hn]
  have e2 : outSub (.plain ⟨false, [n]⟩) = some ⟨false, [n]⟩ := by simp [outSub]
  simp only [generateOut, pathParams, e1, e2, outTarget]

def env0 : Env := ⟨parse "/p".toList, parse "/p/.cache".toList, some "media".toList⟩

example : generateOut env0 [.other, .path (.source ⟨parse "/p/src".toList, parse "sub/fig.png".toList⟩)]
    (some ".html".toList) (some "_crop".toList) (some "jpg".toList) false true
    = .ok (some ⟨parse "/p".toList, parse "html".toList, parse "media/sub/fig_crop.jpg".toList⟩) := by rfl

example : HasSub (.source ⟨parse "/p/src".toList, parse "sub/fig.png".toList⟩) (child (parse "sub".toList) "fig.png".toList) :=
  .source _ _ (by decide)

example : DirFor (some ".html".toList) (.plain (parse [])) ⟨false, ["html".toList]⟩ :=
  .dotted "html".toList _ (by unfold IsName; decide) (by decide) (by decide)

/-- A file whose name merely starts like the media directory is not placed there. -/
theorem C34_media_refuted :
    generateOut env0 [.path (.plain (parse "mediafile.png".toList))] (some "html".toList) none none false true
      = .ok (some ⟨parse "/p".toList, parse "html".toList, parse "mediafile.png".toList⟩) := by rfl

/-- Different inputs with the same output: two absolute paths with the same name, and a file that is in the
media directory already. -/
theorem C34_injective_refuted :
    generateOut env0 [.path (.plain (parse "/a/fig.png".toList))] none none none false false =
      generateOut env0 [.path (.plain (parse "/b/fig.png".toList))] none none none false false ∧
    generateOut env0 [.path (.plain (parse "fig.png".toList))] none none none false true =
      generateOut env0 [.path (.plain (parse "media/fig.png".toList))] none none none false true :=
  have a : generateOut env0 [.path (.plain (parse "/a/fig.png".toList))] none none none false false =
      .ok (some ⟨parse "/p".toList, parse [], parse "fig.png".toList⟩) := by rfl
  have b : generateOut env0 [.path (.plain (parse "/b/fig.png".toList))] none none none false false =
      .ok (some ⟨parse "/p".toList, parse [], parse "fig.png".toList⟩) := by rfl
  have c : generateOut env0 [.path (.plain (parse "fig.png".toList))] none none none false true =
      .ok (some ⟨parse "/p".toList, parse [], parse "media/fig.png".toList⟩) := by rfl
  have d : generateOut env0 [.path (.plain (parse "media/fig.png".toList))] none none none false true =
      .ok (some ⟨parse "/p".toList, parse [], parse "media/fig.png".toList⟩) := by rfl
  ⟨a.trans b.symm, c.trans d.symm⟩

/-- An input with `..` has its output outside the directory of the target. -/
theorem C34_escapes :
    generateOut env0 [.path (.plain (parse "../../x.txt".toList))] (some "html".toList) none none false false
      = .ok (some ⟨parse "/p".toList, parse "html".toList, parse "../../x.txt".toList⟩) := by rfl

/-- An input that has lost its root, like the `.parent` of a source path, raises an exception. -/
theorem C34_untracked (env : Env) (p : Path) (rest : List Param) (target append ext : Option Str)
    (useCache useMedia : Bool) :
    generateOut env (.path (.untracked p) :: rest) target append ext useCache useMedia = .error .type := rfl

/-! ## C35: searching for projects -/

/-- A document is found exactly if it is directly in a directory such that no directory above holds documents;
that directory is the root of the project. -/
theorem C35_exact (entries : List FsEntry) (ext : Str) (h : ∀ e ∈ entries, e.path.parts ≠ []) (s : SourcePath) :
    s ∈ srcFilepaths entries ext ↔
      (∃ n, s.sub = ⟨false, [n]⟩ ∧ IsDoc entries ext (child s.root n)) ∧
      ∀ a, Above a s.root → ¬ HoldsDoc entries ext a := by
  rw [mem_srcFilepaths entries ext h s]
  constructor
  · rintro ⟨⟨_, h2⟩, h3⟩; exact ⟨h3, h2⟩
  · rintro ⟨⟨n, h1, h2⟩, h3⟩; exact ⟨⟨⟨n, h2⟩, h3⟩, n, h1, h2⟩

/-- Every document lies in exactly one of the projects found. -/
theorem C35_one_root (entries : List FsEntry) (ext : Str) (h : ∀ e ∈ entries, e.path.parts ≠ []) (p : Path)
    (hp : IsDoc entries ext p) :
    ∃ r, (∃ s ∈ srcFilepaths entries ext, s.root = r) ∧ Within r p ∧
      ∀ r', (∃ s ∈ srcFilepaths entries ext, s.root = r') → Within r' p → r' = r := by
  have hne : p.parts ≠ [] := by
    obtain ⟨⟨e, he, rfl⟩, _⟩ := hp
    exact h e he
  have hh : HoldsDoc entries ext (parent p) := ⟨name p, by rw [child_parent_name p hne]; exact hp⟩
  obtain ⟨r, h1, h2, h3⟩ := exists_root entries ext (parent p).parts.length (parent p) (Nat.le_refl _) hh
  have hpp : Above (parent p) p := by
    refine ⟨rfl, [name p], by simp, ?_⟩
    have := congrArg Path.parts (child_parent_name p hne)
    exact this.symm
  have hrp : Above r p := by
    rcases h1 with rfl | h1
    · exact hpp
    · obtain ⟨e1, x, hx1, hx2⟩ := h1
      obtain ⟨e2, y, hy1, hy2⟩ := hpp
      exact ⟨e1.trans e2, x ++ y, by simp [hx1], by rw [hy2, hx2, List.append_assoc]⟩
  refine ⟨r, ?_, hrp, ?_⟩
  · obtain ⟨n, hn⟩ := h2
    exact ⟨⟨r, ⟨false, [n]⟩⟩, (C35_exact entries ext h _).2 ⟨⟨n, rfl, hn⟩, h3⟩, rfl⟩
  · rintro r' ⟨s, hs, rfl⟩ hw
    obtain ⟨⟨n, _, hn⟩, hno⟩ := (C35_exact entries ext h s).1 hs
    rcases above_linear s.root r p hw hrp with e | e | e
    · exact e
    · exact absurd ⟨n, hn⟩ (h3 _ e)
    · exact absurd h2 (hno _ e)

/-- No project lies in another one. -/
theorem C35_not_nested (entries : List FsEntry) (ext : Str) (h : ∀ e ∈ entries, e.path.parts ≠ [])
    (s s' : SourcePath) (hs : s ∈ srcFilepaths entries ext) (hs' : s' ∈ srcFilepaths entries ext) :
    ¬ Above s.root s'.root := by
  intro ha
  obtain ⟨⟨n, _, hn⟩, _⟩ := (C35_exact entries ext h s).1 hs
  exact ((C35_exact entries ext h s').1 hs').2 _ ha ⟨n, hn⟩

def tree0 : List FsEntry :=
  [⟨parse "a/index.dm".toList, false⟩, ⟨parse "a/sub".toList, true⟩, ⟨parse "a/sub/ch.dm".toList, false⟩,
   ⟨parse "b/c/one.dm".toList, false⟩, ⟨parse "b/c/two.dm".toList, false⟩, ⟨parse "b/readme.txt".toList, false⟩]

example : srcFilepaths tree0 ".dm".toList =
    [⟨parse "a".toList, parse "index.dm".toList⟩, ⟨parse "b/c".toList, parse "one.dm".toList⟩,
     ⟨parse "b/c".toList, parse "two.dm".toList⟩] := by decide

example : ∀ e ∈ tree0, e.path.parts ≠ [] := by decide

/-- A directory whose name has the extension of documents is taken for a document. -/
theorem C35_directory_taken : srcFilepaths [⟨parse "old.dm".toList, true⟩, ⟨parse "p/index.dm".toList, false⟩] ".dm".toList
    = [⟨parse [], parse "old.dm".toList⟩] := by decide

/-- The targets of a project are put beside its directory of sources if that is called `src`, and into it if it has another
name. -/
theorem C32_target_root (a : Bool) (dirs : List Str) (n : Str) :
    getTargetRoot ⟨a, dirs ++ [n]⟩ = if n = "src".toList then ⟨a, dirs⟩ else ⟨a, dirs ++ [n]⟩ := by
  unfold getTargetRoot name parent
  simp

/-- The root directory of the system has no name, and is used itself. -/
example : getTargetRoot ⟨true, []⟩ = ⟨true, []⟩ := by decide

example : getTargetRoot (parse "/home/me/src".toList) = parse "/home/me".toList := by decide

end Verif.Paths
