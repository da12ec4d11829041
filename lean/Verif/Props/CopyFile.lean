import Verif.Lemmas.CopyFile

/-!
# C68: copied and saved files
-/

namespace Verif.CopyFile

open Verif Verif.Decider

variable {c : Cfg} {enc : Str → Bytes}

theorem allCount_two (h : AllCount c fs [a, b] ts) : ∃ s t, Counts c fs a s ∧ Counts c fs b t ∧ ts = [s, t] := by
  cases h with
  | cons _ s _ ts h1 h2 =>
    cases h2 with
    | cons _ t _ ts h3 h4 => cases h4; exact ⟨s, t, h1, h3, rfl⟩

theorem allCount_one (h : AllCount c fs [a] ts) : ∃ s, Counts c fs a s ∧ ts = [s] := by
  cases h with
  | cons _ s _ ts h1 h2 => cases h2; exact ⟨s, h1, rfl⟩

theorem allCount_length (h : AllCount c fs is ts) : is.length = ts.length := by
  induction h with
  | nil => rfl
  | cons => simp_all

theorem counts_other (h : Counts c fs (.other b) t) : t = b := by cases h; rfl

theorem perm_two {α : Type} {a b x y : α} (h : [a, b].Perm [x, y]) : (a = x ∧ b = y) ∨ (a = y ∧ b = x) := by
  have hx : x ∈ [a, b] := h.mem_iff.2 (by simp)
  rcases List.mem_cons.1 hx with rfl | hx
  · have := List.perm_singleton.1 ((List.perm_cons x).1 h)
    cases this; exact .inl ⟨rfl, rfl⟩
  · have := List.mem_singleton.1 hx
    subst this
    have h' : [x, a].Perm [x, y] := (List.Perm.swap a x []).trans h
    have := List.perm_singleton.1 ((List.perm_cons x).1 h')
    cases this; exact .inr ⟨rfl, rfl⟩

/-- What counts is the same for equal contents of files that are both pdfs or both not. -/
theorem counts_congr (n : Nat) (hn : n > 0) (hc : c.chunks = readChunks n) {fs fs' : FS} {p q : Str} (h : fs p = fs' q)
    (hp : c.isPdf p = c.isPdf q) (hk : Counts c fs (.path p) t) : Counts c fs' (.path q) t := by
  rw [← counts_iff c n hn hc] at hk ⊢
  simp only [Cfg.fed] at hk ⊢
  rw [← h, ← hp]; exact hk

theorem counts_unique (n : Nat) (hn : n > 0) (hc : c.chunks = readChunks n) (h : Counts c fs it s) (h' : Counts c fs it t) : s = t := by
  rw [← counts_iff c n hn hc] at h h'
  rw [h] at h'; cases h'; rfl

theorem counts_exists (n : Nat) (hn : n > 0) (hc : c.chunks = readChunks n) (h : fs p = some b) : ∃ t, Counts c fs (.path p) t := by
  simp only [← counts_iff c n hn hc]
  simp only [Cfg.fed]
  rw [h]
  exact ⟨_, rfl⟩

/-- A list without duplicates whose members all have one image. -/
theorem single_param (ps : List Param) (q : Str) (h : copyParameters ps = [.path q]) : ∀ x ∈ ps, copyInput x = .path q := by
  intro x hx
  have : x.asPath ∈ copyParameters ps := (mem_copyParameters _ _).2 ⟨x, hx, rfl⟩
  rw [h] at this
  rw [← copyInput_asPath, List.mem_singleton.1 this]
  rfl

/-- C68. A copy that is done has the contents of its source: after any history of changes of files, copies, saved texts and other
builds, starting with an empty database, a copy of a file whose status is "done" has, as far as they count, the present contents of
that file. -/
theorem C68_fresh_partial (n : Nat) (hn : n > 0) (hc : c.chunks = readChunks n) (he : ∀ s, enc s = enc "copy".toList → s = "copy".toList) (fs0 : FS) (ops : List Op)
    (p out : Str) (hp : Plain c enc ⟨fs0, []⟩ ops) (hcol : NoClash c enc ⟨fs0, []⟩ ops p out) (hne : p ≠ out)
    (hd : copyStatus c enc (run c enc ⟨fs0, []⟩ ops) [.path p] out = .ok .done) :
    Fresh c (run c enc ⟨fs0, []⟩ ops).fs p out := by
  rcases status_eq (c := c) (enc := enc) (run c enc ⟨fs0, []⟩ ops) [.path p] out with ⟨h, _⟩ | ⟨_, _, _, h⟩ | ⟨_, _, _, h⟩
  · rcases h with h | h
    · unfold needed at h
      obtain ⟨_, i, d, h1, h2, h3⟩ := Classical.not_not.1 h
      obtain ⟨pre, op, post, is, o, k1, k2, k3, k4⟩ := run_rec fs0 ops i d h3
      obtain ⟨a1, a2⟩ := hcol pre op post is o k1 k2.decides
      have e1 : inputs enc copyAction (copyParameters [.path p]) = [.path p, .other (enc "copy".toList)] := rfl
      rw [e1] at h1
      obtain ⟨ts, ts', b1, b2, b3⟩ := (C21_different c n hn hc _ _ _ _ _ _ h1 k3 a1).1 rfl
      obtain ⟨us, us', b4, b5, b6⟩ := (C21_different c n hn hc _ _ _ _ _ _ h2 k4 a2).1 rfl
      obtain ⟨s, t, s1, s2, rfl⟩ := allCount_two b1
      obtain ⟨u, u1, rfl⟩ := allCount_one b4
      obtain ⟨v, v1, rfl⟩ := allCount_one b5
      have huv : u = v := by simpa using List.perm_singleton.1 b6
      subst huv
      have ht := counts_other s2
      subst ht
      have hlen : is.length = 2 := by rw [allCount_length b2, ← b3.length_eq]; rfl
      refine ⟨s, s1, ?_⟩
      suffices s = u by rw [this]; exact u1
      cases k2 with
      | copy ps out' q rest b c1 c2 c3 c4 =>
        rw [c1] at b2 hlen
        have hr : rest = [] := by
          unfold inputs at hlen
          simp at hlen
          exact hlen
        subst hr
        have e2 : inputs enc copyAction [.path q] = [.path q, .other (enc "copy".toList)] := rfl
        rw [e2] at b2
        obtain ⟨x, y, x1, x2, rfl⟩ := allCount_two b2
        have hy := counts_other x2
        subst hy
        have hs : s = x := by
          rcases perm_two b3 with ⟨h, _⟩ | ⟨h, h'⟩
          · exact h
          · rw [h, ← h']
        subst hs
        have hpdf : c.isPdf q = c.isPdf out' :=
          hp.copy ps out' q (by rw [k1]; simp) (single_param ps q c1)
        have hfs : (run c enc ⟨fs0, []⟩ (pre ++ [.copy ps out'])).fs = write (run c enc ⟨fs0, []⟩ pre).fs out' b := by
          rw [run_snoc]; exact c4
        rw [hfs] at x1 v1
        have : Counts c (write (run c enc ⟨fs0, []⟩ pre).fs out' b) (.path out') s := by
          refine counts_congr n hn hc ?_ hpdf x1
          unfold write
          rw [if_neg c3, if_pos rfl, c2]
        exact counts_unique n hn hc this v1
      | save ps out' w c1 =>
        exfalso
        have hw : Param.text w ∈ saveParameters ps := by
          unfold strings at c1
          obtain ⟨x, hx, h⟩ := List.mem_filterMap.1 c1
          cases x <;> simp at h
          rw [← h]; exact hx
        have hps : saveParameters ps = [.text w] := by
          unfold inputs at hlen
          simp at hlen
          match hm : saveParameters ps with
          | [] => rw [hm] at hlen; cases hlen
          | [x] => rw [hm] at hw; rw [List.mem_singleton.1 hw]
          | x :: y :: l => rw [hm] at hlen; simp at hlen
        rw [hps] at b2
        have e2 : inputs enc saveAction [.text w] = [.other (enc w), .other (enc "save".toList)] := rfl
        rw [e2] at b2
        obtain ⟨x, y, x1, x2, rfl⟩ := allCount_two b2
        have hx := counts_other x1
        have hy := counts_other x2
        subst hx hy
        rcases perm_two b3 with ⟨_, h⟩ | ⟨_, h⟩
        · exact absurd (he _ h.symm) (by decide)
        · have := he _ h.symm
          subst this
          exact hp.save ps out' (by rw [k1]; simp) ((Lists.mem_uniq _ _).1 hw)
      | other _ _ =>
        exfalso
        have hfs : (run c enc ⟨fs0, []⟩ (pre ++ [.other is o true])).fs = (run c enc ⟨fs0, []⟩ pre).fs := by
          rw [run_snoc]; rfl
        rw [hfs] at b2
        exact hp.other pre is o post ts' s k1 b2 b3.symm
    · rw [copyParameters_single] at h
      simp [infilepaths] at h
      exact absurd h hne
  · rw [hd] at h; cases h
  · rw [hd] at h; cases h

/-- C68. A build brings a copy up to date: after any such history, `build()` of a copy of an existing file ends as "done" with the
contents of the source, and changes no other file. -/
theorem C68_build_partial (n : Nat) (hn : n > 0) (hc : c.chunks = readChunks n) (he : ∀ s, enc s = enc "copy".toList → s = "copy".toList) (fs0 : FS) (ops : List Op)
    (p out : Str) (hp : Plain c enc ⟨fs0, []⟩ ops) (hcol : NoClash c enc ⟨fs0, []⟩ ops p out) (hne : p ≠ out)
    (hpdf : c.isPdf p = c.isPdf out) (w : World) (hw : w = run c enc ⟨fs0, []⟩ ops) (hf : w.fs p ≠ none) :
    ∃ w', copyBuild c enc w [.path p] out = (.ok .done, w') ∧ Fresh c w'.fs p out ∧ ∀ q, q ≠ out → w'.fs q = w.fs q := by
  rcases status_eq (c := c) (enc := enc) w [.path p] out with ⟨_, h⟩ | ⟨_, _, ⟨q, h1, h2⟩, _⟩ | ⟨_, _, _, h⟩
  · refine ⟨w, ?_, ?_, fun _ _ => rfl⟩
    · rcases build_cases (c := c) (enc := enc) w [.path p] out with ⟨_, h'⟩ | ⟨h', _⟩ | ⟨h', _⟩ | ⟨h', _⟩
      · rw [h', h]
      all_goals rw [h] at h'; cases h'
    · rw [hw] at h ⊢
      exact C68_fresh_partial n hn hc he fs0 ops p out hp hcol hne h
  · rw [mem_infilepaths, copyParameters_single, List.mem_singleton] at h1
    cases h1
    exact absurd h2 hf
  · obtain ⟨b, hb⟩ := Option.ne_none_iff_exists'.1 hf
    obtain ⟨_, i, d, k1, k2, _⟩ := build_ready (c := c) (enc := enc) w [.path p] out p [] b (copyParameters_single p) h hb
    refine ⟨(copyBuild c enc w [.path p] out).2, ?_, ?_, ?_⟩
    · rw [← k1]
    · rw [k2]
      have h1 : write w.fs out b p = some b := by unfold write; rw [if_neg hne, hb]
      have h2 : write w.fs out b out = some b := by unfold write; rw [if_pos rfl]
      obtain ⟨t, ht⟩ := counts_exists n hn hc h1
      exact ⟨t, ht, counts_congr n hn hc (by rw [h1, h2]) hpdf ht⟩
    · intro q hq
      rw [k2]; unfold write; rw [if_neg hq]

/-- C68. A copy that is made is exact, whatever the database has: if the status is "ready" and the first parameter is a file, the
output gets all of its contents. -/
theorem C68_copied (w : World) (p : Str) (rest : List Param) (out : Str)
    (h : copyStatus c enc w (.path p :: rest) out = .ok .ready) :
    ∃ b, w.fs p = some b ∧ (copyBuild c enc w (.path p :: rest) out).1 = .ok .done ∧
      (copyBuild c enc w (.path p :: rest) out).2.fs out = some b ∧
      copyStatus c enc (copyBuild c enc w (.path p :: rest) out).2 (.path p :: rest) out = .ok .done := by
  obtain ⟨r, hr⟩ : ∃ r, copyParameters (.path p :: rest) = .path p :: r := ⟨_, rfl⟩
  rcases build_cases (c := c) (enc := enc) w (.path p :: rest) out with ⟨h', _⟩ | ⟨_, _, h'⟩ | ⟨_, _, x, r', h', hx⟩ |
    ⟨_, q, r', b, w', h', hb, _, hw, he⟩
  · exact absurd h h'
  · rw [hr] at h'; cases h'
  · rw [hr] at h'; cases h'; exact absurd rfl (hx p)
  · rw [hr] at h'; cases h'
    obtain ⟨_, i, d, k1, k2, _⟩ := build_ready (c := c) (enc := enc) w _ out p r b hr h hb
    refine ⟨b, hb, k1, ?_, ?_⟩
    · rw [k2]; unfold write; rw [if_pos rfl]
    · rw [he] at k1 ⊢; exact k1

/-- C68. Only the output is changed, by a copy and by a saved text, with any parameters. -/
theorem C68_only_output (w : World) (ps : List Param) (out q : Str) (hq : q ≠ out) :
    (copyBuild c enc w ps out).2.fs q = w.fs q ∧ (saveBuild c enc w ps out).2.fs q = w.fs q := by
  constructor
  · rcases build_cases (c := c) (enc := enc) w ps out with ⟨_, h⟩ | ⟨_, h, _⟩ | ⟨_, h, _⟩ | ⟨hr, p, r, b, w', hps, hb, _, _, _⟩
    · rw [h]
    · rw [h]
    · rw [h]
    · obtain ⟨_, _, _, _, k, _⟩ := build_ready (c := c) (enc := enc) w ps out p r b hps hr hb
      rw [k]; unfold write; rw [if_neg hq]
  · rcases save_eq (c := c) (enc := enc) w ps out with ⟨_, h⟩ | ⟨s, rest, _, h⟩
    · rw [h]
    · rw [h, (record_eq (c := c) (enc := enc) saveAction _ _ _).1]
      simp only [write]; rw [if_neg hq]

/-- C68. A missing file is reported, and nothing is written or recorded. -/
theorem C68_missing (w : World) (ps : List Param) (out p : Str) (hp : Param.path p ∈ ps) (hf : w.fs p = none)
    (h1 : ps.head? ≠ some (.path out)) (h2 : ps.head? ≠ some (.text out)) (h3 : ∀ b, ps.head? ≠ some (.other b)) :
    copyBuild c enc w ps out = (.ok .missingParameters, w) := by
  have hmem : Param.path p ∈ copyParameters ps := (mem_copyParameters _ _).2 ⟨_, hp, rfl⟩
  have hst : copyStatus c enc w ps out = .ok .missingParameters := by
    rcases status_eq (c := c) (enc := enc) w ps out with ⟨h, _⟩ | ⟨_, _, _, h⟩ | ⟨_, _, h, _⟩
    · exfalso
      rcases h with h | h
      · unfold needed at h
        obtain ⟨⟨_, h⟩, _⟩ := Classical.not_not.1 h
        refine h p (List.mem_cons_of_mem _ ?_) hf
        unfold inputs
        exact List.mem_append_left _ (List.mem_map.2 ⟨_, hmem, rfl⟩)
      · cases ps with
        | nil => cases hp
        | cons x rest =>
          obtain ⟨r, hr⟩ : ∃ r, copyParameters (x :: rest) = x.asPath :: r := ⟨_, rfl⟩
          rw [hr] at h
          cases x with
          | path q => simp [Param.asPath, infilepaths] at h; subst h; exact h1 rfl
          | text q => simp [Param.asPath, infilepaths] at h; subst h; exact h2 rfl
          | other b => exact h3 b rfl
    · exact h
    · exact absurd hf (h p ((mem_infilepaths _ _).2 hmem))
  rcases build_cases (c := c) (enc := enc) w ps out with ⟨_, h'⟩ | ⟨h', _⟩ | ⟨h', _⟩ | ⟨h', _⟩
  · rw [h', hst]
  all_goals rw [hst] at h'; cases h'

/-- The first string of the parameters stays the first one. -/
theorem strings_uniq (pre rest : List Param) (s : Str) (seen : List Param) (hpre : ∀ t, Param.text t ∉ pre) (hs : Param.text s ∉ seen) :
    ∃ r, strings (Lists.uniqLoop id seen (pre ++ .text s :: rest)) = s :: r := by
  induction pre generalizing seen with
  | nil =>
    refine ⟨strings (Lists.uniqLoop id (.text s :: seen) rest), ?_⟩
    simp only [List.nil_append, Lists.uniqLoop, id]
    rw [if_neg hs]
    rfl
  | cons x pre ih =>
    have hx : ∀ t, x ≠ .text t := fun t h => hpre t (by rw [h]; exact List.mem_cons_self)
    have hp : ∀ t, Param.text t ∉ pre := fun t h => hpre t (List.mem_cons_of_mem _ h)
    simp only [List.cons_append, Lists.uniqLoop, id]
    by_cases hm : x ∈ seen
    · rw [if_pos hm]; exact ih seen hp hs
    · rw [if_neg hm]
      obtain ⟨r, hr⟩ := ih (x :: seen) hp (by
        rw [List.mem_cons]
        rintro (h | h)
        · exact hx s h.symm
        · exact hs h)
      refine ⟨r, ?_⟩
      rw [← hr]
      cases x with
      | path p => rfl
      | other b => rfl
      | text t => exact absurd rfl (hx t)

/-- C68. A text is saved as it is: the output gets the first string of the parameters, even if a build is not needed. Without a
string there is an error, and nothing is written. -/
theorem C68_saved (w : World) (pre rest : List Param) (s out : Str) (hpre : ∀ t, Param.text t ∉ pre) :
    (saveBuild c enc w (pre ++ .text s :: rest) out).2.fs out = some (enc s) ∧
    ((∀ p, Param.path p ∈ pre ++ rest → w.fs p ≠ none) →
      (saveBuild c enc w (pre ++ .text s :: rest) out).1 = .ok .done) ∧
    saveBuild c enc w pre out = (.error .buildError, w) := by
  obtain ⟨r, hr⟩ := strings_uniq pre rest s [] hpre (by simp)
  have hs : strings (saveParameters (pre ++ .text s :: rest)) = s :: r := hr
  generalize hps : pre ++ Param.text s :: rest = ps at hs
  have hmem : ∀ p, Param.path p ∈ saveParameters ps → Param.path p ∈ pre ++ rest := by
    intro p hp
    have := (Lists.mem_uniq _ _).1 hp
    rw [← hps] at this
    rcases List.mem_append.1 this with h | h
    · exact List.mem_append_left _ h
    · rcases List.mem_cons.1 h with h | h
      · cases h
      · exact List.mem_append_right _ h
  refine ⟨?_, fun hall => ?_, ?_⟩
  · rcases save_eq (c := c) (enc := enc) w ps out with ⟨h, _⟩ | ⟨s', r', h, h'⟩
    · rw [hs] at h; cases h
    · rw [hs] at h; cases h
      rw [h', (record_eq (c := c) (enc := enc) saveAction _ _ _).1]
      simp only [write, if_true]
  · have ht := allThere_write (enc := enc) w (saveParameters ps) out (enc s) saveAction fun p hp => hall p (hmem p hp)
    obtain ⟨r1, r2⟩ := record_eq (c := c) (enc := enc) saveAction ⟨write w.fs out (enc s), w.db⟩ (saveParameters ps) out
    rcases r2 with ⟨h, _⟩ | ⟨_, i, d, _, _, _, hn⟩
    · exact absurd ht h
    · unfold saveBuild
      rw [hs]
      simp only
      generalize record c enc saveAction ⟨write w.fs out (enc s), w.db⟩ (saveParameters ps) out = w' at r1 hn
      obtain ⟨b, hb, hb'⟩ := needed_eq (c := c) (enc := enc) saveAction w' (saveParameters ps) out
      have hbf : b = false := by
        cases b with
        | false => rfl
        | true => exact absurd (hb'.1 rfl) hn
      subst hbf
      unfold inputs at hb
      have hmiss : (((saveParameters ps).map (Param.item enc)).isEmpty || ((saveParameters ps).map (Param.item enc)).any (missing w'.fs)) = false := by
        rw [Bool.or_eq_false_iff]
        constructor
        · cases hl : saveParameters ps with
          | nil => rw [hl] at hs; cases hs
          | cons => rfl
        · rw [List.any_eq_false]
          intro it hit
          obtain ⟨x, hx, rfl⟩ := List.mem_map.1 hit
          cases x with
          | text t => simp [Param.item, missing]
          | other t => simp [Param.item, missing]
          | path p =>
            have := ht.2 p (List.mem_cons_of_mem _ (by
              unfold inputs
              exact List.mem_append_left _ (List.mem_map.2 ⟨_, hx, rfl⟩)))
            rw [r1]
            simp only [Param.item, missing]
            rw [Option.isNone_iff_eq_none]; exact this
      have hsee : Builder.see c w'.fs w'.db ((saveParameters ps).map (Param.item enc)) (enc saveAction) out =
          some ⟨false, false, (w'.fs out).isSome⟩ := by
        unfold Builder.see
        rw [hb]
        simp only [Option.map_some]
        rw [hmiss]
      unfold Builder.Leaf.statusIn
      rw [hsee]
      rfl
  · have h0 : strings (saveParameters pre) = [] := by
      unfold strings
      rw [List.filterMap_eq_nil_iff]
      intro x hx
      cases x with
      | path p => rfl
      | other b => rfl
      | text t => exact absurd ((Lists.mem_uniq _ _).1 hx) (hpre t)
    unfold saveBuild
    rw [h0]

/-! ### Where copies are not up to date -/

/-- Refutation: the decider sees the contents of the parameters without their order. If the contents of the copied file and of a
dependency are exchanged, the copy counts as done, with what is now in the dependency. This is so for every hash function. -/
theorem C68_exchanged (c : Cfg) (enc : Str → Bytes) (p q out : Str) (x y : Bytes) (hpq : p ≠ q) (hp : p ≠ out) (hq : q ≠ out)
    (hpdf : c.isPdf p = c.isPdf q) (db : Dict Bytes Bytes) (fs : FS) (h1 : fs p = some x) (h2 : fs q = some y) (h3 : fs out = none) :
    ∃ w, copyBuild c enc ⟨fs, db⟩ [.path p, .path q] out = (.ok .done, w) ∧ w.fs out = some x ∧
      copyStatus c enc ⟨fun z => if z = p then some y else if z = q then some x else w.fs z, w.db⟩ [.path p, .path q] out = .ok .done := by
  have hps : copyParameters [.path p, .path q] = [.path p, .path q] := by
    have : Param.path q ∉ [Param.path p] := by simp [Ne.symm hpq]
    simp [copyParameters, Param.asPath, Lists.uniq, Lists.uniqLoop, Ne.symm hpq]
  have hr : copyStatus c enc ⟨fs, db⟩ [.path p, .path q] out = .ok .ready := by
    rcases status_eq (c := c) (enc := enc) ⟨fs, db⟩ [.path p, .path q] out with ⟨h, _⟩ | ⟨_, _, ⟨z, hz, hn⟩, _⟩ | ⟨_, _, _, h⟩
    · rcases h with h | h
      · unfold needed at h
        obtain ⟨⟨_, h⟩, _⟩ := Classical.not_not.1 h
        exact absurd h3 (h out List.mem_cons_self)
      · rw [hps] at h
        simp [infilepaths] at h
        exact absurd h hp
    · rw [mem_infilepaths, hps] at hz
      simp only [List.mem_cons, Param.path.injEq, List.not_mem_nil, or_false] at hz
      rcases hz with rfl | rfl
      · simp only [h1] at hn; cases hn
      · simp only [h2] at hn; cases hn
    · exact h
  obtain ⟨_, i, d, k1, k2, k3, k4, k5, _⟩ := build_ready (c := c) (enc := enc) ⟨fs, db⟩ _ out p _ x hps hr h1
  refine ⟨_, Prod.ext k1 rfl, by rw [k2]; simp [write], ?_⟩
  rcases status_eq (c := c) (enc := enc) ⟨fun z => if z = p then some y else if z = q then some x else
      (copyBuild c enc ⟨fs, db⟩ [.path p, .path q] out).2.fs z, (copyBuild c enc ⟨fs, db⟩ [.path p, .path q] out).2.db⟩
      [.path p, .path q] out with ⟨_, h⟩ | ⟨h, _⟩ | ⟨h, _⟩
  · exact h
  all_goals
    exfalso
    refine h ⟨⟨inputs_ne _ _, ?_⟩, i, d, ?_, ?_, ?_⟩
    · intro z hz
      rw [hps] at hz
      simp only [inputs, List.map_cons, List.map_nil, Param.item, List.cons_append, List.nil_append, List.mem_cons, Item.path.injEq,
        List.not_mem_nil, or_false, reduceCtorEq] at hz
      simp only [k2, write]
      rcases hz with rfl | rfl | rfl
      · rw [if_neg (Ne.symm hp), if_neg (Ne.symm hq), if_pos rfl]; simp
      · rw [if_pos rfl]; simp
      · rw [if_neg (Ne.symm hpq), if_pos rfl]; simp
    · rw [← k3, hps]
      have e : ∀ f g : FS, f p = some y → f q = some x → g p = some x → g q = some y →
          c.hashItems f (inputs enc copyAction [.path p, .path q]) = c.hashItems g (inputs enc copyAction [.path p, .path q]) := by
        intro f g f1 f2 g1 g2
        simp only [inputs, List.map_cons, List.map_nil, Param.item, List.cons_append, List.nil_append, Cfg.hashItems, List.mapM_cons,
          List.mapM_nil, Cfg.fed, f1, f2, g1, g2, Option.map_some, hpdf, pure, bind, Option.bind]
        congr 3
        exact sortBytes_congr _ _ (by exact List.Perm.swap _ _ _)
      refine e _ _ ?_ ?_ ?_ ?_
      · simp
      · simp [Ne.symm hpq]
      · simp [write, hp, h1]
      · simp [write, hq, h2]
    · rw [← k4]
      simp [Cfg.hashItems, Cfg.fed, k2, Ne.symm hp, Ne.symm hq]
    · simp only
      rw [k5, Dict.get?_set, if_pos rfl]

/-- Refutation: the decider does not know which of its inputs is the action. If the copied file reads "save" and the text "copy" is
then saved to the copy, the copy counts as done, although it reads "copy". This is so for every hash function. -/
theorem C68_save_clash (c : Cfg) (enc : Str → Bytes) (fs : FS) (db : Dict Bytes Bytes) (p out : Str) (hne : p ≠ out)
    (hp : c.isPdf p = false) (hc : fileFed (c.chunks (enc "save".toList)) = enc "save".toList) (hf : fs p = some (enc "save".toList))
    (w : World) (hw : w = (saveBuild c enc ⟨fs, db⟩ [.text "copy".toList] out).2) :
    copyStatus c enc w [.path p] out = .ok .done ∧ w.fs out = some (enc "copy".toList) ∧ w.fs p = some (enc "save".toList) := by
  have e1 : w.fs out = some (enc "copy".toList) := by
    rw [hw]; exact (C68_saved (c := c) (enc := enc) ⟨fs, db⟩ [] [] "copy".toList out (by simp)).1
  have e2 : w.fs p = some (enc "save".toList) := by
    rw [hw, (C68_only_output (c := c) (enc := enc) ⟨fs, db⟩ [.text "copy".toList] out p hne).2]; exact hf
  refine ⟨?_, e1, e2⟩
  rcases status_eq (c := c) (enc := enc) w [.path p] out with ⟨_, h⟩ | ⟨h, _⟩ | ⟨h, _⟩
  · exact h
  all_goals
    exfalso
    rcases save_eq (c := c) (enc := enc) ⟨fs, db⟩ [.text "copy".toList] out with ⟨h', _⟩ | ⟨s, r, _, h'⟩
    · cases h'
    · rename_i hs
      cases hs
      rw [← hw] at h'
      obtain ⟨r1, r2⟩ := record_eq (c := c) (enc := enc) saveAction ⟨write fs out (enc "copy".toList), db⟩ [.text "copy".toList] out
      have hsp : saveParameters [.text "copy".toList] = [.text "copy".toList] := rfl
      rw [hsp] at h'
      rw [← h'] at r1 r2
      have ht := allThere_write (enc := enc) ⟨fs, db⟩ [.text "copy".toList] out (enc "copy".toList) saveAction (by simp)
      rcases r2 with ⟨r2, _⟩ | ⟨_, i, d, k1, k2, k3, _⟩
      · exact r2 ht
      · refine h ⟨⟨inputs_ne _ _, ?_⟩, i, d, ?_, ?_, ?_⟩
        · intro z hz
          rw [copyParameters_single] at hz
          simp only [inputs, List.map_cons, List.map_nil, Param.item, List.cons_append, List.nil_append, List.mem_cons,
            Item.path.injEq, List.not_mem_nil, or_false, reduceCtorEq] at hz
          rcases hz with rfl | rfl
          · rw [e1]; simp
          · rw [e2]; simp
        · rw [← k1, copyParameters_single]
          simp only [inputs, List.map_cons, List.map_nil, Param.item, List.cons_append, List.nil_append, Cfg.hashItems, List.mapM_cons,
            List.mapM_nil, Cfg.fed, e2, Option.map_some, hp, pure, bind, Option.bind, Bool.false_eq_true, if_false, hc, copyAction,
            saveAction]
          congr 3
          exact sortBytes_congr _ _ (by exact List.Perm.swap _ _ _)
        · rw [← k2, r1]
        · rw [k3, Dict.get?_set, if_pos rfl]

/-- Refutation: a copy of a file to itself is done, even if there is no such file. -/
theorem C68_itself (w : World) (rest : List Param) (out : Str) : copyBuild c enc w (.path out :: rest) out = (.ok .done, w) := by
  have hst : copyStatus c enc w (.path out :: rest) out = .ok .done := by
    rcases status_eq (c := c) (enc := enc) w (.path out :: rest) out with ⟨_, h⟩ | ⟨_, h, _⟩ | ⟨_, h, _⟩
    · exact h
    · exact absurd rfl h
    · exact absurd rfl h
  rcases build_cases (c := c) (enc := enc) w (.path out :: rest) out with ⟨_, h'⟩ | ⟨h', _⟩ | ⟨h', _⟩ | ⟨h', _⟩
  · rw [h', hst]
  all_goals rw [hst] at h'; cases h'

/-- Refutation: a copy without a file is ready if there is no output, and building it raises an exception that is no build error. -/
theorem C68_no_file (w : World) (out : Str) (h : w.fs out = none) (b : Bytes) :
    copyStatus c enc w [] out = .ok .ready ∧ copyBuild c enc w [] out = (.error .indexError, w) ∧
    copyStatus c enc w [.other b] out = .ok .ready ∧ copyBuild c enc w [.other b] out = (.error .typeError, w) := by
  have hst : ∀ ps : List Param, infilepaths (copyParameters ps) = [] → copyStatus c enc w ps out = .ok .ready := by
    intro ps hps
    rcases status_eq (c := c) (enc := enc) w ps out with ⟨h', _⟩ | ⟨_, _, ⟨p, hp, _⟩, _⟩ | ⟨_, _, _, h'⟩
    · rcases h' with h' | h'
      · unfold needed at h'
        obtain ⟨⟨_, h'⟩, _⟩ := Classical.not_not.1 h'
        exact absurd h (h' out List.mem_cons_self)
      · rw [hps] at h'; cases h'
    · rw [hps] at hp; cases hp
    · exact h'
  have h1 := hst [] rfl
  have h2 := hst [.other b] rfl
  refine ⟨h1, ?_, h2, ?_⟩
  · rcases build_cases (c := c) (enc := enc) w [] out with ⟨h', _⟩ | ⟨_, h', _⟩ | ⟨_, _, _, _, h', _⟩ | ⟨_, _, _, _, _, h', _⟩
    · exact absurd h1 h'
    · exact h'
    · cases h'
    · cases h'
  · rcases build_cases (c := c) (enc := enc) w [.other b] out with ⟨h', _⟩ | ⟨_, _, h'⟩ | ⟨_, h', _⟩ | ⟨_, _, _, _, _, h', _⟩
    · exact absurd h2 h'
    · cases h'
    · exact h'
    · cases h'

/-! ### Concrete cases -/

/-- An encoding for the checks. -/
def toyEnc (s : Str) : Bytes := if s = "copy".toList then [7] else if s = "save".toList then [8] else [9]

/-- Refutation: a file that was once copied to a pdf file; what counts of the pdf lacks the lines with dates, and a file that is no
pdf and lacks them counts as a copy. -/
theorem C68_to_pdf :
    (copyStatus toy toyEnc (run toy toyEnc ⟨fun p => if p = "q".toList then some [1, 10, 47, 73, 5, 10, 2] else
      if p = "x".toList then some [1, 2] else none, []⟩ [.copy [.path "q".toList] "o.pdf".toList]) [.path "q".toList] "x".toList).toOption =
    some .done := by
  decide +kernel

/-- A world for the checks: a file, no copy yet. -/
def toyWorld : World := ⟨fun p => if p = "a".toList then some [1, 2] else none, []⟩

/-- The hypotheses of the theorems on histories are met: after a copy, nothing clashes. -/
example : Plain toy toyEnc toyWorld [.copy [.path "a".toList] "o".toList] ∧
    NoClash toy toyEnc toyWorld [.copy [.path "a".toList] "o".toList] "a".toList "o".toList ∧
    (∀ s, toyEnc s = toyEnc "copy".toList → s = "copy".toList) := by
  refine ⟨⟨?_, ?_, ?_⟩, ?_, ?_⟩
  · intro ps out h
    cases List.mem_singleton.1 h
  · intro ps out q h hx
    cases List.mem_singleton.1 h
    have := hx _ List.mem_cons_self
    cases this
    decide
  · intro pre is o post ts s h
    cases pre with
    | nil => cases h
    | cons x pre =>
      rw [List.cons_append, List.cons.injEq] at h
      exact absurd h.2.symm (by simp)
  · intro pre op post is o h hd
    cases pre with
    | cons x pre =>
      rw [List.cons_append, List.cons.injEq] at h
      exact absurd h.2.symm (by simp)
    | nil =>
      rw [List.nil_append, List.cons.injEq] at h
      obtain ⟨rfl, rfl⟩ := h
      cases hd with
      | copy ps l out hn hl =>
        have hl' : l = [.path "a".toList] := by
          match l, hn, hl with
          | [], _, hl => exact absurd ((hl (.path "a".toList)).2 (by simp [copyInput])) (by simp)
          | [x], _, hl =>
            have := (hl x).1 List.mem_cons_self
            simp only [List.map_cons, List.map_nil, List.mem_singleton] at this
            rw [this]; rfl
          | x :: y :: l, hn, hl =>
            have h1 := (hl x).1 List.mem_cons_self
            have h2 := (hl y).1 (List.mem_cons_of_mem _ List.mem_cons_self)
            simp only [List.map_cons, List.map_nil, List.mem_singleton] at h1 h2
            rw [h1, h2] at hn
            simp at hn
        subst hl'
        have k1 : ([.path "a".toList, .other (toyEnc "copy".toList)] : List Item).mapM
            (toy.fed (run toy toyEnc toyWorld [.copy [.path "a".toList] "o".toList]).fs) = some [[1, 2], [7]] := by decide +kernel
        have k2 : ([.path "o".toList] : List Item).mapM
            (toy.fed (run toy toyEnc toyWorld [.copy [.path "a".toList] "o".toList]).fs) = some [[1, 2]] := by decide +kernel
        constructor
        · intro ts ts' ds ds' h1 h2 h3 h4
          have e1 := (allCount_iff toy 2 (by decide) rfl _ _ _).2 h1
          have e2 := (allCount_iff toy 2 (by decide) rfl _ _ _).2 h2
          rw [k1] at e1
          rw [List.nil_append, List.cons_append, List.nil_append, k1] at e2
          cases e1; cases e2
          have two : ∀ ds : List Bytes, ds.Perm ([[1, 2], [7]].map toyH) → ds = [toyH [1, 2], toyH [7]] ∨ ds = [toyH [7], toyH [1, 2]] := by
            intro ds h
            match ds, h.length_eq with
            | [a, b], _ =>
              rcases perm_two h with ⟨rfl, rfl⟩ | ⟨rfl, rfl⟩
              · exact .inl rfl
              · exact .inr rfl
          rcases two ds h3 with rfl | rfl <;> rcases two ds' h4 with rfl | rfl <;>
            exact ⟨by decide +kernel, 4, by decide, by decide +kernel⟩
        · intro ts ts' ds ds' h1 h2 h3 h4
          have e1 := (allCount_iff toy 2 (by decide) rfl _ _ _).2 h1
          have e2 := (allCount_iff toy 2 (by decide) rfl _ _ _).2 h2
          rw [k2] at e1
          rw [List.nil_append, k2] at e2
          cases e1; cases e2
          cases List.perm_singleton.1 h3
          cases List.perm_singleton.1 h4
          exact ⟨by decide +kernel, 4, by decide, by decide +kernel⟩
  · intro s h
    unfold toyEnc at h
    by_cases hs : s = "copy".toList
    · exact hs
    · rw [if_neg hs, if_pos rfl] at h
      split at h <;> cases h

/-- A copy is made, the file changes, the copy is out of date and made again. -/
example :
    let w := run toy toyEnc toyWorld [.copy [.path "a".toList] "o".toList]
    let w' : World := ⟨fun p => if p = "a".toList then some [3] else w.fs p, w.db⟩
    w.fs "o".toList = some [1, 2] ∧ (copyStatus toy toyEnc w [.path "a".toList] "o".toList).toOption = some .done ∧
    (copyStatus toy toyEnc w' [.path "a".toList] "o".toList).toOption = some .ready ∧
    (copyBuild toy toyEnc w' [.path "a".toList] "o".toList).2.fs "o".toList = some [3] := by
  decide +kernel

end Verif.CopyFile
