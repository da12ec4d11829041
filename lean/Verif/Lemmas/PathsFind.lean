import Verif.Lemmas.Paths

/-! # Lemmas about finding files, output paths and projects -/

namespace Verif.Paths

open Verif Verif.Utils

/-! ## `find_file` -/

theorem candidate_ok (p : PyPath) (path : Path) (hp : GoodPy p) (hg : Good path) (hr : path.abs = false) :
    ∃ c, candidate p path = .ok c ∧ c.full = div p.full path ∧ GoodPy c := by
  cases p with
  | plain q => exact ⟨_, rfl, rfl, good_div q path hp hg⟩
  | source s =>
    obtain ⟨h1, h2, h3⟩ := hp
    have hd := good_div s.sub path h2 hg
    have ha : (div s.sub path).abs = false := by simp [div, hr, h3]
    refine ⟨.source ⟨s.root, div s.sub path⟩, ?_, ?_, h1, hd, ha⟩
    · simp only [candidate, SourcePath.useSubpath, mkSource_rel s.root _ h1 hd ha]; rfl
    · simp only [PyPath.full, SourcePath.full, div_assoc]
  | target t =>
    obtain ⟨h1, h2, h3, h4, h5⟩ := hp
    have hd := good_div t.sub path h3 hg
    have ha : (div t.sub path).abs = false := by simp [div, hr, h4]
    refine ⟨.target ⟨t.root, t.target, div t.sub path⟩, ?_, ?_, h1, h2, hd, ha, h5⟩
    · simp only [candidate, TargetPath.useSubpath, mkTarget_rel t.root t.target _ h1 h2 h5 hd ha]; rfl
    · simp only [PyPath.full, TargetPath.full, div_assoc]
  | untracked q => exact absurd hp (by simp [GoodPy])

theorem searchLoop_quiet (isFile : Path → Except PathError Bool) (path : Path) (hg : Good path)
    (hr : path.abs = false) (ps : List PyPath) (hps : ∀ p ∈ ps, GoodPy p) :
    ∃ r, searchLoop isFile path false ps = .ok r ∧
      r.map PyPath.full = (ps.map fun p => div p.full path).find? (isThere isFile) := by
  induction ps with
  | nil => exact ⟨none, rfl, rfl⟩
  | cons p ps ih =>
    obtain ⟨c, h1, h2, _⟩ := candidate_ok p path (hps p (by simp)) hg hr
    obtain ⟨r, h3, h4⟩ := ih (fun q hq => hps q (by simp [hq]))
    unfold searchLoop
    simp only [h1, List.map_cons, List.find?_cons, ← h2, isThere]
    cases hi : isFile c.full with
    | error e => exact ⟨r, by simpa using h3, by simpa using h4⟩
    | ok b =>
      cases b with
      | true => exact ⟨some c, rfl, rfl⟩
      | false => exact ⟨r, h3, h4⟩

theorem searchLoop_raising (isFile : Path → Except PathError Bool) (path : Path) (hg : Good path)
    (hr : path.abs = false) (ps : List PyPath) (hps : ∀ p ∈ ps, GoodPy p) :
    match (ps.map fun p => div p.full path).find? (isHit isFile) with
    | none => searchLoop isFile path true ps = .ok none
    | some l =>
      match isFile l with
      | .ok _ => ∃ c, searchLoop isFile path true ps = .ok (some c) ∧ c.full = l
      | .error e => searchLoop isFile path true ps = .error e := by
  induction ps with
  | nil => simp [searchLoop]
  | cons p ps ih =>
    obtain ⟨c, h1, h2, _⟩ := candidate_ok p path (hps p (by simp)) hg hr
    have ih := ih (fun q hq => hps q (by simp [hq]))
    unfold searchLoop
    simp only [h1, List.map_cons, List.find?_cons, ← h2, isHit]
    cases hi : isFile c.full with
    | error e => simp [hi]
    | ok b =>
      cases b with
      | true => simp only [hi]; exact ⟨c, rfl, rfl⟩
      | false => exact ih

theorem div_dot (path : Path) (hr : path.abs = false) : div (parse ['.']) path = path := by
  obtain ⟨a, l⟩ := path
  simp only at hr
  subst hr
  rfl

theorem good_dot : GoodPy (.plain (parse ['.'])) := parse_good ['.']

theorem find_abs (b : Path → Bool) (path : Path) (ha : path.abs = true) (paths : List PyPath) :
    (locations path paths).find? b = if b path then some path else none := by
  unfold locations
  rw [List.find?_cons]
  cases hb : b path with
  | true => rfl
  | false =>
    simp only [Bool.false_eq_true, if_false]
    rw [List.find?_eq_none]
    intro x hx
    obtain ⟨p, _, rfl⟩ := List.mem_map.1 hx
    have : div p.full path = path := by simp [div, ha]
    rw [this, hb]; simp

theorem good_full (p : PyPath) (h : GoodPy p) : Good p.full := by
  cases p with
  | plain q => exact h
  | source s => exact good_div _ _ h.1 h.2.1
  | target t => exact good_div _ _ (good_div _ _ h.1 h.2.1) h.2.2.1
  | untracked q => exact absurd h (by simp [GoodPy])

theorem findPath_quiet (isFile : Path → Except PathError Bool) (path : PyPath) (hp : Good path.full)
    (paths : List PyPath) (hps : ∀ p ∈ paths, GoodPy p) :
    ∃ r, findPath isFile path paths false = .ok r ∧
      r.map PyPath.full = (locations path.full paths).find? (isThere isFile) ∧
      (isThere isFile path.full = true → r = some path) := by
  by_cases ha : path.full.abs = true
  · rw [find_abs _ _ ha]
    unfold findPath isThere
    simp only [if_pos ha]
    cases hi : isFile path.full with
    | error e => exact ⟨none, by simp⟩
    | ok b =>
      cases b with
      | true => exact ⟨some path, by simp⟩
      | false => exact ⟨none, by simp⟩
  · have ha' : path.full.abs = false := by simpa using ha
    obtain ⟨r, h1, h2⟩ := searchLoop_quiet isFile path.full hp ha' (.plain (parse ['.']) :: paths)
      (by intro p hm; rcases List.mem_cons.1 hm with rfl | hm
          · exact good_dot
          · exact hps p hm)
    have hdot : div (PyPath.plain (parse ['.'])).full path.full = path.full := div_dot _ ha'
    rw [List.map_cons, hdot] at h2
    have hr : (match r with
      | some c => (Except.ok (some c) : Except PathError (Option PyPath))
      | none => Except.ok none) = Except.ok r := by cases r <;> rfl
    unfold findPath
    simp only [if_neg ha, h1, Bool.false_eq_true, if_false]
    cases hi : isFile path.full with
    | error e =>
      refine ⟨r, ?_, h2, ?_⟩
      · cases r <;> rfl
      · intro h; simp [isThere, hi] at h
    | ok b =>
      cases b with
      | true =>
        exact ⟨some path, rfl, by simp [locations, isThere, hi], fun _ => rfl⟩
      | false =>
        refine ⟨r, ?_, h2, ?_⟩
        · cases r <;> rfl
        · intro h; simp [isThere, hi] at h

theorem findPath_raising (isFile : Path → Except PathError Bool) (path : PyPath) (hp : Good path.full)
    (paths : List PyPath) (hps : ∀ p ∈ paths, GoodPy p) :
    match (locations path.full paths).find? (isHit isFile) with
    | none => findPath isFile path paths true = .error .notFound
    | some l =>
      match isFile l with
      | .ok _ => ∃ c, findPath isFile path paths true = .ok (some c) ∧ c.full = l
      | .error e => findPath isFile path paths true = .error e := by
  by_cases ha : path.full.abs = true
  · rw [find_abs _ _ ha]
    unfold findPath
    have hcase : (∃ e, isFile path.full = .error e) ∨ isFile path.full = .ok true ∨ isFile path.full = .ok false := by
      cases isFile path.full with
      | error e => exact Or.inl ⟨e, rfl⟩
      | ok b => cases b <;> simp
    rcases hcase with ⟨e, hi⟩ | hi | hi
    · simp [hi, isHit]
    · simp only [isHit, hi, if_true]; exact ⟨path, rfl, rfl⟩
    · simp [isHit, hi, ha]
  · have ha' : path.full.abs = false := by simpa using ha
    have hs := searchLoop_raising isFile path.full hp ha' (.plain (parse ['.']) :: paths)
      (by intro p hm; rcases List.mem_cons.1 hm with rfl | hm
          · exact good_dot
          · exact hps p hm)
    have hdot : div (PyPath.plain (parse ['.'])).full path.full = path.full := div_dot _ ha'
    rw [List.map_cons, hdot] at hs
    change match (locations path.full paths).find? (isHit isFile) with
      | none => searchLoop isFile path.full true (.plain (parse ['.']) :: paths) = .ok none
      | some l =>
        match isFile l with
        | .ok _ => ∃ c, searchLoop isFile path.full true (.plain (parse ['.']) :: paths) = .ok (some c) ∧ c.full = l
        | .error e => searchLoop isFile path.full true (.plain (parse ['.']) :: paths) = .error e at hs
    unfold findPath
    simp only [if_neg ha, if_true]
    cases hi : isFile path.full with
    | error e => simp [locations, isHit, hi]
    | ok b =>
      cases b with
      | true =>
        simp only [locations, List.find?_cons, isHit, hi]
        exact ⟨path, rfl, rfl⟩
      | false =>
        cases hf : (locations path.full paths).find? (isHit isFile) with
        | none => simp only [hf] at hs ⊢; rw [hs]
        | some l =>
          simp only [hf] at hs ⊢
          cases hl : isFile l with
          | error e => simp only [hl] at hs ⊢; rw [hs]
          | ok b =>
            simp only [hl] at hs ⊢
            obtain ⟨c, h1, h2⟩ := hs
            exact ⟨c, by rw [h1], h2⟩

/-! ## Projects -/

theorem mem_parents (p q : Path) : q ∈ parents p ↔ Above q p := by
  unfold parents Above
  simp only [List.mem_map, List.mem_reverse, List.mem_range]
  constructor
  · rintro ⟨i, hi, rfl⟩
    refine ⟨rfl, p.parts.drop i, ?_, (List.take_append_drop i p.parts).symm⟩
    intro h
    have := congrArg List.length h
    simp at this
    omega
  · rintro ⟨h1, r, h2, h3⟩
    refine ⟨q.parts.length, ?_, ?_⟩
    · rw [h3, List.length_append]
      have : r.length ≠ 0 := by simpa using h2
      omega
    · obtain ⟨a, l⟩ := q
      simp only at h1 h3
      rw [h3]
      simp [h1]

theorem mem_globDocs (entries : List FsEntry) (ext : Str) (p : Path) :
    p ∈ globDocs entries ext ↔ IsDoc entries ext p := by
  simp [globDocs, IsDoc]

theorem holds_iff (entries : List FsEntry) (ext : Str) (h : ∀ e ∈ entries, e.path.parts ≠ []) (d : Path) :
    (∃ p ∈ globDocs entries ext, parent p = d) ↔ HoldsDoc entries ext d := by
  unfold HoldsDoc
  constructor
  · rintro ⟨p, hp, rfl⟩
    refine ⟨name p, ?_⟩
    rw [child_parent_name p]
    · exact (mem_globDocs _ _ _).1 hp
    · obtain ⟨⟨e, he, rfl⟩, _⟩ := (mem_globDocs _ _ _).1 hp
      exact h e he
  · rintro ⟨n, hn⟩
    exact ⟨_, (mem_globDocs _ _ _).2 hn, parent_child d n⟩

theorem mem_basePaths (entries : List FsEntry) (ext : Str) (h : ∀ e ∈ entries, e.path.parts ≠ []) (d : Path) :
    d ∈ basePaths entries ext ↔ HoldsDoc entries ext d ∧ ∀ a, Above a d → ¬ HoldsDoc entries ext a := by
  unfold basePaths
  simp only [List.mem_filter, List.mem_eraseDups, List.mem_map, Bool.not_eq_true', List.any_eq_false,
    List.contains_iff_mem]
  rw [holds_iff entries ext h d]
  constructor
  · rintro ⟨h1, h2⟩
    refine ⟨h1, fun a ha hh => h2 a ((mem_parents d a).2 ha) ?_⟩
    exact (holds_iff entries ext h a).2 hh
  · rintro ⟨h1, h2⟩
    exact ⟨h1, fun a ha hm => h2 a ((mem_parents d a).1 ha) ((holds_iff entries ext h a).1 hm)⟩

theorem mem_srcFilepaths (entries : List FsEntry) (ext : Str) (h : ∀ e ∈ entries, e.path.parts ≠ [])
    (s : SourcePath) :
    s ∈ srcFilepaths entries ext ↔
      (HoldsDoc entries ext s.root ∧ ∀ a, Above a s.root → ¬ HoldsDoc entries ext a) ∧
      ∃ n, s.sub = ⟨false, [n]⟩ ∧ IsDoc entries ext (child s.root n) := by
  unfold srcFilepaths
  simp only [List.mem_flatMap, List.mem_map, globDir, List.mem_filter, decide_eq_true_eq]
  constructor
  · rintro ⟨d, hd, p, ⟨hp, hpd⟩, rfl⟩
    refine ⟨(mem_basePaths entries ext h d).1 hd, name p, ?_, ?_⟩
    · have hne : p.parts ≠ [] := by
        obtain ⟨⟨e, he, rfl⟩, _⟩ := (mem_globDocs _ _ _).1 hp
        exact h e he
      have := child_parent_name p hne
      rw [hpd] at this
      simp only [Path.mk.injEq, true_and]
      conv => lhs; rw [← this]
      simp [child]
    · have hne : p.parts ≠ [] := by
        obtain ⟨⟨e, he, rfl⟩, _⟩ := (mem_globDocs _ _ _).1 hp
        exact h e he
      have := child_parent_name p hne
      rw [hpd] at this
      simp only
      rw [this]
      exact (mem_globDocs _ _ _).1 hp
  · rintro ⟨hb, n, hs, hn⟩
    refine ⟨s.root, (mem_basePaths entries ext h s.root).2 hb, child s.root n,
      ⟨(mem_globDocs _ _ _).2 hn, parent_child _ _⟩, ?_⟩
    obtain ⟨r, sub⟩ := s
    simp only at hs
    subst hs
    simp [child]

/-- Every document lies below a highest directory that holds documents. -/
theorem exists_root (entries : List FsEntry) (ext : Str) (k : Nat) : ∀ d : Path, d.parts.length ≤ k →
    HoldsDoc entries ext d →
    ∃ r, (r = d ∨ Above r d) ∧ HoldsDoc entries ext r ∧ ∀ a, Above a r → ¬ HoldsDoc entries ext a := by
  induction k with
  | zero =>
    intro d hk hh
    refine ⟨d, Or.inl rfl, hh, ?_⟩
    rintro a ⟨_, r, hr, e⟩
    have := congrArg List.length e
    rw [List.length_append] at this
    have : r.length ≠ 0 := by simpa using hr
    omega
  | succ k ih =>
    intro d hk hh
    by_cases hx : ∃ a, Above a d ∧ HoldsDoc entries ext a
    · obtain ⟨a, ha, hha⟩ := hx
      have hlen : a.parts.length ≤ k := by
        obtain ⟨_, r, hr, e⟩ := ha
        have := congrArg List.length e
        rw [List.length_append] at this
        have : r.length ≠ 0 := by simpa using hr
        omega
      obtain ⟨r, h1, h2, h3⟩ := ih a hlen hha
      refine ⟨r, Or.inr ?_, h2, h3⟩
      rcases h1 with rfl | h1
      · exact ha
      · obtain ⟨e1, x, hx1, hx2⟩ := h1
        obtain ⟨e2, y, hy1, hy2⟩ := ha
        exact ⟨e1.trans e2, x ++ y, by simp [hx1], by rw [hy2, hx2, List.append_assoc]⟩
    · refine ⟨d, Or.inl rfl, hh, fun a ha hha => hx ⟨a, ha, hha⟩⟩

/-- Two directories above the same path: one is above the other. -/
theorem above_linear (a b p : Path) (ha : Above a p) (hb : Above b p) : a = b ∨ Above a b ∨ Above b a := by
  obtain ⟨a1, r, hr, ea⟩ := ha
  obtain ⟨b1, s, hs, eb⟩ := hb
  obtain ⟨aa, al⟩ := a
  obtain ⟨ba, bl⟩ := b
  simp only at a1 b1 ea eb
  rw [ea] at eb
  rcases List.append_eq_append_iff.1 eb with ⟨x, h1, h2⟩ | ⟨x, h1, h2⟩
  · by_cases hx : x = []
    · left; subst hx; simp only [List.append_nil] at h1; rw [h1, a1, b1]
    · right; left; exact ⟨a1.trans b1.symm, x, hx, h1⟩
  · by_cases hx : x = []
    · left; subst hx; simp only [List.append_nil] at h1; rw [h1, a1, b1]
    · right; right; exact ⟨b1.trans a1.symm, x, hx, h1⟩

end Verif.Paths
