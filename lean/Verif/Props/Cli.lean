import Verif.Lemmas.Cli

/-!
# C80: the command `build`

The theorems are about `buildAll`, the loop of the command over any projects, and `buildCommand`.
-/

namespace Verif.Build

open Verif Verif.Decider Verif.Builder

/-- **C80.** The database never lies, whatever was built by commands or otherwise. -/
theorem C80_truthful {c : Cfg} {U : Scope} {fs : FS} {db : Dict Bytes Bytes} (h : PastCli c U fs db) : Truthful c U db := by
  induction h with
  | new => intro s fs k o _ _ _ hg; cases hg
  | edit fs fs' db _ _ ih => exact ih
  | forget fs db db' _ hd ih => exact fun s fs k o hs hf h hg => ih s fs k o hs hf h (hd k o hg)
  | build P a depth root rounds w S hc hb _ ih =>
    subst hc
    obtain ⟨S', h1, _⟩ := hb.out ih depth rounds
    exact h1.held.inv.truth
  | command P a depth root rounds w S hc hb _ ih =>
    subst hc
    obtain ⟨S', h1, _⟩ := hb.cli ih depth rounds
    exact h1.held.inv.truth
  | stopped P a stop depth root rounds w S hc hb _ ih =>
    subst hc
    exact (hb.stopped ih stop depth rounds).1
  | commandStopped P a stop depth root rounds w S hc hb _ ih =>
    subst hc
    exact (hb.cliStopped ih stop depth rounds).1

theorem PastCli.files {c : Cfg} {U : Scope} {fs : FS} {db : Dict Bytes Bytes} (h : PastCli c U fs db) : U.files fs := by
  induction h with
  | new _ h => exact h
  | edit _ _ _ _ h => exact h
  | forget _ _ _ _ _ ih => exact ih
  | build P a depth root rounds w S hc hb hp _ =>
    subst hc
    obtain ⟨S', h1, _⟩ := hb.out (C80_truthful hp) depth rounds
    exact h1.held.inv.files
  | command P a depth root rounds w S hc hb hp _ =>
    subst hc
    obtain ⟨S', h1, _⟩ := hb.cli (C80_truthful hp) depth rounds
    exact h1.held.inv.files
  | stopped P a stop depth root rounds w S hc hb hp _ =>
    subst hc
    exact (hb.stopped (C80_truthful hp) stop depth rounds).2
  | commandStopped P a stop depth root rounds w S hc hb hp _ =>
    subst hc
    exact (hb.cliStopped (C80_truthful hp) stop depth rounds).2.1

/-- A project can be built after another one was. -/
theorem Prepared.after {U : Scope} {d : Disk} {f e : Env} {Sf Se : Nat → Prop} (hf : Prepared U d f Sf) (he : Prepared U d e Se)
    (ha : Apart f.project e.project) (hc : f.cache = e.cache → f.project.cfg = e.project.cfg) (depth rounds : Nat) :
    Prepared U (f.left d (f.project.buildCli f.adds depth f.root rounds (f.at d)).2) e Se := by
  obtain ⟨hpast, _, hbeg⟩ := hf
  obtain ⟨S1, h1, _⟩ := hbeg.cli (C80_truthful hpast) depth rounds
  have hsrc : ∀ p, ¬ Made f.project (fun _ => True) p → (f.project.buildCli f.adds depth f.root rounds (f.at d)).2.fs p = d.fs p :=
    fun p h => buildCli_keeps sources_rel f.adds depth f.root rounds (f.at d) p h
  have hfs : U.files (f.project.buildCli f.adds depth f.root rounds (f.at d)).2.fs := h1.held.inv.files
  by_cases hk : f.cache = e.cache
  · have hdb : (f.left d (f.project.buildCli f.adds depth f.root rounds (f.at d)).2).dbs e.cache =
        (f.project.buildCli f.adds depth f.root rounds (f.at d)).2.db := by
      simp [Env.left, put, hk]
    refine he.same (apart_same ha hsrc) ?_ hfs ?_
    · rw [hdb, ← hc hk]
      exact .command f.project f.adds depth f.root rounds (f.at d) Sf rfl hbeg hpast
    · rw [hdb, ← hc hk, ← hk]
      exact h1.held.inv.memory
  · have hdb : (f.left d (f.project.buildCli f.adds depth f.root rounds (f.at d)).2).dbs e.cache = d.dbs e.cache := by
      simp [Env.left, put, Ne.symm hk]
    refine he.same (apart_same ha hsrc) ?_ hfs ?_
    · rw [hdb]
      exact .edit _ _ _ he.1 hfs
    · rw [hdb]
      exact fun _ _ _ _ _ _ _ h => h

/-- The records of a database are kept by the command. -/
theorem buildAll_remembers {U : Scope} {S : Env → Nat → Prop} {es : List Env} {d : Disk} (hsep : Separate es)
    (hp : ∀ e ∈ es, Prepared U d e (S e)) (depth rounds : Nat) (c : Cfg) (b : Str) (hc : ∀ e ∈ es, b = e.cache → c = e.project.cfg) :
    Remembers c U (d.dbs b) ((buildAll depth rounds es d).2.2.dbs b) := by
  induction es generalizing d with
  | nil => exact fun _ _ _ _ _ _ _ h => h
  | cons f es ih =>
    obtain ⟨hfe, hsep'⟩ := List.pairwise_cons.1 hsep
    have hf := hp f (by simp)
    have hnext : ∀ e ∈ es, Prepared U (f.left d (f.project.buildCli f.adds depth f.root rounds (f.at d)).2) e (S e) :=
      fun e he => hf.after (hp e (by simp [he])) (hfe e he).1 (hfe e he).2.2 depth rounds
    have h1 : Remembers c U (d.dbs b) ((f.left d (f.project.buildCli f.adds depth f.root rounds (f.at d)).2).dbs b) := by
      by_cases hb : b = f.cache
      · obtain ⟨S1, h1, _⟩ := hf.2.2.cli (C80_truthful hf.1) depth rounds
        have := h1.held.inv.memory
        rw [hc f (by simp) hb, hb]
        simp only [Env.left, put, if_true]
        exact this
      · simp only [Env.left, put, if_neg hb]
        exact fun _ _ _ _ _ _ _ h => h
    have h2 := ih hsep' hnext (fun e he => hc e (by simp [he]))
    unfold buildAll
    generalize f.project.buildCli f.adds depth f.root rounds (f.at d) = q at h1 h2 ⊢
    obtain ⟨r, w1⟩ := q
    rcases r with _ | (x | st1)
    · exact h1
    · exact h1
    · exact fun t fs k o ht hfs hd hg => h2 t fs k o ht hfs hd (h1 t fs k o ht hfs hd hg)

/-- **C80.** The theorems hold for the next command again: what is on the disk after the command, however it ends, is something that builds
and edits leave, for the databases of its projects and for others. -/
theorem C80_past {U : Scope} {S : Env → Nat → Prop} {es : List Env} {d : Disk} (hsep : Separate es)
    (hp : ∀ e ∈ es, Prepared U d e (S e)) (depth rounds : Nat) (c : Cfg) (b : Str) (hc : ∀ e ∈ es, b = e.cache → c = e.project.cfg)
    (hb : PastCli c U d.fs (d.dbs b)) :
    PastCli c U (buildAll depth rounds es d).2.2.fs ((buildAll depth rounds es d).2.2.dbs b) := by
  induction es generalizing d with
  | nil => exact hb
  | cons f es ih =>
    obtain ⟨hfe, hsep'⟩ := List.pairwise_cons.1 hsep
    have hf := hp f (by simp)
    have hnext : ∀ e ∈ es, Prepared U (f.left d (f.project.buildCli f.adds depth f.root rounds (f.at d)).2) e (S e) :=
      fun e he => hf.after (hp e (by simp [he])) (hfe e he).1 (hfe e he).2.2 depth rounds
    have h1 : PastCli c U (f.left d (f.project.buildCli f.adds depth f.root rounds (f.at d)).2).fs
        ((f.left d (f.project.buildCli f.adds depth f.root rounds (f.at d)).2).dbs b) := by
      by_cases hk : b = f.cache
      · simp only [Env.left, put, if_pos hk]
        rw [hc f (by simp) hk]
        exact .command f.project f.adds depth f.root rounds (f.at d) (S f) rfl hf.2.2 hf.1
      · simp only [Env.left, put, if_neg hk]
        obtain ⟨S1, h1, _⟩ := hf.2.2.cli (C80_truthful hf.1) depth rounds
        exact .edit _ _ _ hb h1.held.inv.files
    have h2 := ih hsep' hnext (fun e he => hc e (by simp [he])) h1
    unfold buildAll
    generalize f.project.buildCli f.adds depth f.root rounds (f.at d) = q at h1 h2 ⊢
    obtain ⟨r, w1⟩ := q
    rcases r with _ | (x | st1)
    · exact h1
    · exact h1
    · exact h2

/-- What is known of each project after the command. -/
theorem buildAll_each {U : Scope} {S : Env → Nat → Prop} {es : List Env} {d : Disk} (hsep : Separate es)
    (hp : ∀ e ∈ es, Prepared U d e (S e)) (depth rounds k : Nat) (e : Env) (he : es[k]? = some e) (st : Status) (w : World)
    (hk : (buildAll depth rounds es d).1[k]? = some (st, w)) :
    ∃ S' : Nat → Prop, (∀ i, S e i → w.runs i = 0) ∧ (∀ i s, e.project.node i = some (.step s) → w.runs i ≤ 1) ∧
      (st = .done → ∀ i, Part e.project (grown e.made.subs e.adds w.runs) e.root i → S' i) ∧
      (∀ i, S' i → ∃ s, e.project.node i = some (.step s) ∧
        Done e.project.cfg (buildAll depth rounds es d).2.2.fs ((buildAll depth rounds es d).2.2.dbs e.cache) s ∧
        Current (buildAll depth rounds es d).2.2.fs s) := by
  induction es generalizing d k with
  | nil => cases he
  | cons f es ih =>
    obtain ⟨hfe, hsep'⟩ := List.pairwise_cons.1 hsep
    have hf := hp f (by simp)
    obtain ⟨hpast, _, hbeg⟩ := hf
    obtain ⟨S1, h1, h2⟩ := hbeg.cli (C80_truthful hpast) depth rounds
    have hnext : ∀ e ∈ es, Prepared U (f.left d (f.project.buildCli f.adds depth f.root rounds (f.at d)).2) e (S e) :=
      fun e he => (hp f (by simp)).after (hp e (by simp [he])) (hfe e he).1 (hfe e he).2.2 depth rounds
    have hrem := buildAll_remembers hsep' hnext depth rounds f.project.cfg f.cache (fun e he => (hfe e he).2.2)
    have h1' : Out f.project U f.made.subs f.adds _ f.root _ (S f) (f.project.buildCli f.adds depth f.root rounds (f.at d)).2 S1 := h1
    have h2' : (f.project.buildCli f.adds depth f.root rounds (f.at d)).1 = some (.ok .done) →
        ∀ i, Part f.project (grown f.made.subs f.adds (f.project.buildCli f.adds depth f.root rounds (f.at d)).2.runs) f.root i → S1 i := h2
    clear h1 h2
    unfold buildAll at hk ⊢
    generalize f.project.buildCli f.adds depth f.root rounds (f.at d) = q at h1' h2' hnext hrem hk ⊢
    obtain ⟨r, w1⟩ := q
    rcases r with _ | (x | st1)
    · cases hk
    · cases hk
    · simp only at h1' h2' hnext hrem hk ⊢
      cases k with
      | zero =>
        have hfe' : f = e := by injection he
        subst hfe'
        have hst : (st1, w1) = (st, w) := by injection hk
        injection hst with hst hw
        subst hst hw
        have hsame : SameFor f.project w1.fs (buildAll depth rounds es (f.left d w1)).2.2.fs := by
          intro i s hn
          refine ⟨buildAll_sources depth rounds es (f.left d w1) _ ?_, fun p hpp => buildAll_sources depth rounds es (f.left d w1) _ ?_⟩
          · rintro e' he' ⟨j, t, _, hj, ho⟩
            exact ((hfe e' he').2.1 j i t s hj hn).1 ho
          · rintro e' he' ⟨j, t, _, hj, ho⟩
            exact ((hfe e' he').2.1 j i t s hj hn).2 (ho ▸ hpp)
        refine ⟨S1, fun i hi => ?_, fun i s hn => ?_, fun hd => h2' (by rw [hd]), fun i hi => ?_⟩
        · rw [h1'.kept i hi]
          exact ((hbeg.2 f.made.runs).new i).2
        · rcases h1'.held.inv.once i s hn with h | ⟨h, _⟩ <;> omega
        · obtain ⟨s, h3, ⟨kk, o, h4, h5⟩, _⟩ := h1'.held.inv.settled i hi
          have hU := (hbeg.2 f.made.runs).sound.known _ _ h3
          have h6 := h1'.held.inv.done_current hU ⟨kk, o, h4, h5⟩
          have h7 : ((f.left d w1).dbs f.cache).get? kk = some o := by
            simpa [Env.left, put] using h5
          exact ⟨s, h3, ⟨kk, o, digests_same hsame h3 h4, hrem s w1.fs kk o hU h1'.held.inv.files h4 h7⟩, current_same hsame h3 h6⟩
      | succ k => exact ih hsep' hnext k he hk

/-- **C80.** If the command prints 'done' for a project, then after the command the file of each step of its builders, and of those that
its pages added, is what the tool of that step makes from the files there are, and its digests are recorded: whatever the other projects
are and however their builds end. -/
theorem C80_current {U : Scope} {S : Env → Nat → Prop} {es : List Env} {d : Disk} (hsep : Separate es)
    (hp : ∀ e ∈ es, Prepared U d e (S e)) (depth rounds k : Nat) (e : Env) (he : es[k]? = some e) (w : World)
    (hk : (buildAll depth rounds es d).1[k]? = some (.done, w)) (i : Nat) (s : Step)
    (hi : Part e.project (grown e.made.subs e.adds w.runs) e.root i) (hn : e.project.node i = some (.step s)) :
    Current (buildAll depth rounds es d).2.2.fs s ∧
      ∃ x y, Digests e.project.cfg (buildAll depth rounds es d).2.2.fs s x y ∧
        ((buildAll depth rounds es d).2.2.dbs e.cache).get? x = some y := by
  obtain ⟨S', _, _, h1, h2⟩ := buildAll_each hsep hp depth rounds k e he .done w hk
  obtain ⟨t, h3, h4, h5⟩ := h2 i (h1 rfl i hi)
  rw [hn] at h3
  injection h3 with h3; injection h3 with h3; subst h3
  exact ⟨h5, h4⟩

/-- **C80.** A step is not run if its digests are recorded and those of all steps that it depends on are, and no step is run twice. -/
theorem C80_not_needed {U : Scope} {S : Env → Nat → Prop} {es : List Env} {d : Disk} (hsep : Separate es)
    (hp : ∀ e ∈ es, Prepared U d e (S e)) (depth rounds k : Nat) (e : Env) (he : es[k]? = some e) (st : Status) (w : World)
    (hk : (buildAll depth rounds es d).1[k]? = some (st, w)) (i : Nat) :
    (S e i → w.runs i = 0) ∧ ∀ s, e.project.node i = some (.step s) → w.runs i ≤ 1 := by
  obtain ⟨S', h1, h2, _, _⟩ := buildAll_each hsep hp depth rounds k e he st w hk
  exact ⟨h1 i, h2 i⟩

/-- **C80.** The command changes no file that no builder makes. -/
theorem C80_sources (depth rounds : Nat) (es : List Env) (d : Disk) (p : Str) (hp : ∀ e ∈ es, ¬ Made e.project (fun _ => True) p) :
    (buildAll depth rounds es d).2.2.fs p = d.fs p := buildAll_sources depth rounds es d p hp

/-- **C80.** If the command ends without an exception, a status was printed for each project. -/
theorem C80_all (depth rounds : Nat) (es : List Env) (d : Disk) (h : (buildAll depth rounds es d).2.1 = .finished) :
    (buildAll depth rounds es d).1.length = es.length := by
  induction es generalizing d with
  | nil => rfl
  | cons e es ih =>
    unfold buildAll at h ⊢
    generalize e.project.buildCli e.adds depth e.root rounds (e.at d) = q at h ⊢
    obtain ⟨r, w⟩ := q
    rcases r with _ | (x | st)
    · cases h
    · cases h
    · simp only at h ⊢
      simp [ih (e.left d w) h]

/-- **C80.** If a project raises an exception, the projects after it are not built: the command does what it does without them. -/
theorem C80_raised (depth rounds : Nat) (es : List Env) (d : Disk) (x : Builder.Err)
    (h : (buildAll depth rounds es d).2.1 = .raised x) :
    ∃ pre e post, es = pre ++ e :: post ∧ (buildAll depth rounds es d).1.length = pre.length ∧
      buildAll depth rounds es d = buildAll depth rounds (pre ++ [e]) d := by
  induction es generalizing d with
  | nil => cases h
  | cons e es ih =>
    unfold buildAll at h
    cases hq : e.project.buildCli e.adds depth e.root rounds (e.at d) with
    | mk r w =>
      rw [hq] at h
      rcases r with _ | (x | st)
      · cases h
      · refine ⟨[], e, es, rfl, ?_, ?_⟩ <;> simp [buildAll, hq]
      · obtain ⟨pre, e', post, h1, h2, h3⟩ := ih (e.left d w) h
        refine ⟨e :: pre, e', post, by rw [h1]; rfl, ?_, ?_⟩
        · simp [buildAll, hq, h2]
        · simp [buildAll, hq, h3]

/-- **C80.** With an output directory and more than one project nothing is built; otherwise all projects are. -/
theorem C80_out_dir (depth rounds : Nat) (outDir : Bool) (es : List Env) (d : Disk) :
    (buildCommand depth rounds outDir es d = none ↔ outDir = true ∧ 2 ≤ es.length) ∧
      ∀ r, buildCommand depth rounds outDir es d = some r → r = buildAll depth rounds es d := by
  unfold buildCommand
  split
  · rename_i h
    exact ⟨⟨fun _ => ⟨h.2, h.1⟩, fun _ => rfl⟩, fun r hr => by cases hr⟩
  · rename_i h
    exact ⟨⟨(by nofun), fun h' => absurd ⟨h'.2, h'.1⟩ h⟩, fun r hr => by injection hr with hr; exact hr.symm⟩

/-! ### An example: two projects -/

/-- A project with a page and an image, and one with a paper, in one directory: they share the database. -/
def albumEnv : Env := ⟨album hourly, hangs, 0, ".cache".toList, opening (fun _ => none) []⟩
def paperEnv : Env := ⟨paper false true slowly, fun _ => none, 0, ".cache".toList, anew (fun _ => none) []⟩

/-- The steps of both. -/
def both : Scope where
  step s := ∃ p a out c inst, 200 < a ∧ (a = 201 ∧ c = 1 ∨ a = 202 ∧ c = 2) ∧ s = ⟨[.path p], [a], out, halve c, inst⟩
  files := small.files

theorem both_faithful : Faithful tiny both := by
  intro s t fs fs' k o o' hs ht hf hf' hd hd' hc
  obtain ⟨p, a, out, c, inst, ha, hac, rfl⟩ := hs
  obtain ⟨p', a', out', c', inst', ha', hac', rfl⟩ := ht
  obtain ⟨x, y, hx, hy, rfl, rfl⟩ := tiny_digests hf ha hd
  obtain ⟨x', y', hx', hy', hk, rfl⟩ := tiny_digests hf' ha' hd'
  simp only [List.cons.injEq, and_true] at hk
  obtain ⟨rfl, rfl⟩ := hk
  have : c = c' := by
    rcases hac with ⟨rfl, rfl⟩ | ⟨rfl, rfl⟩ <;> rcases hac' with ⟨h, rfl⟩ | ⟨h, rfl⟩ <;> first | rfl | (exact absurd h (by decide))
  subst this
  rw [tiny_current hx hy] at hc
  rw [tiny_current hx' hy', hc]

theorem both_groups {s : Step} (hs : both.step s) {fs fs' : FS} {k : Bytes} (hf : small.files fs) (hf' : small.files fs')
    (hg : tiny.hashItems fs [.path "doc.dm".toList, .other [203]] = some k) :
    tiny.hashItems fs' (s.parameters ++ [.other s.action]) ≠ some k := by
  intro hd
  obtain ⟨p, a, out, c, inst, ha, hac, rfl⟩ := hs
  obtain ⟨x, _, h1⟩ := tiny_key hf (by decide) hg
  obtain ⟨y, _, h2⟩ := tiny_key hf' ha hd
  rw [h1] at h2
  simp only [List.cons.injEq, and_true] at h2
  rcases hac with ⟨h, _⟩ | ⟨h, _⟩ <;> exact absurd (h2.2.trans h) (by decide)

theorem album_both : Sound (album hourly) both where
  known i s h := gallery_steps s ((album_sound hourly).known i s h)
  closed := (album_sound hourly).closed
  faithful := both_faithful
  groups n g hn hp s fs fs' k hs hf hf' hg := by
    rcases album_group hourly hn with ⟨_, rfl⟩ | ⟨_, rfl⟩
    · cases hp
    · exact both_groups hs hf hf' hg
  decided := (album_sound hourly).decided
  other := (album_sound hourly).other
  twins := (album_sound hourly).twins

theorem paper_both : Sound (paper false true slowly) both where
  known i s h := small_steps s ((paper_sound _ _ _).known i s h)
  closed := (paper_sound _ _ _).closed
  faithful := both_faithful
  groups n g hn hp s fs fs' k hs hf hf' hg := by
    match n, hn with
    | 0, hn => injection hn with hn; injection hn with hn; subst hn; cases hp
    | 1, hn => injection hn with hn; injection hn with hn; subst hn; exact both_groups hs hf hf' hg
    | 2, hn => cases hn
    | 3, hn => cases hn
    | n + 4, hn => cases hn
  decided := (paper_sound _ _ _).decided
  other := (paper_sound _ _ _).other
  twins := (paper_sound _ _ _).twins

theorem paper_step {i : Nat} {s : Step} (h : (paper false true slowly).node i = some (.step s)) : s = rendering true ∨ s = compiling := by
  match i, h with
  | 2, h => injection h with h; injection h with h; exact .inl h.symm
  | 3, h => injection h with h; injection h with h; exact .inr h.symm

theorem two_separate : Separate [albumEnv, paperEnv] := by
  have h1 : Apart (album hourly) (paper false true slowly) := by
    intro i j s t hi hj
    rcases album_step hourly hi with ⟨_, rfl⟩ | ⟨_, rfl⟩ <;> rcases paper_step hj with rfl | rfl <;>
      simp only [page, converting, rendering, compiling] <;> decide
  have h2 : Apart (paper false true slowly) (album hourly) := by
    intro i j s t hi hj
    rcases paper_step hi with rfl | rfl <;> rcases album_step hourly hj with ⟨_, rfl⟩ | ⟨_, rfl⟩ <;>
      simp only [page, converting, rendering, compiling] <;> decide
  refine List.pairwise_cons.2 ⟨fun e he => ?_, List.pairwise_singleton _ _⟩
  obtain rfl : e = paperEnv := by simpa using he
  exact ⟨h1, h2, fun _ => rfl⟩

theorem album_prepared (fs : FS) (hf : small.files fs) : Prepared both ⟨fs, fun _ => []⟩ albumEnv (fun _ => False) := by
  refine ⟨.new _ hf, ⟨_, rfl⟩, album_fits hourly, fun r => ?_⟩
  have := (album_begins hourly fs [] hf).2 r
  exact ⟨album_both, hf, this.new, this.guarded, this.upToDate, this.clears⟩

theorem grown_none (A : Nat → List Nat) (r : Nat → Nat) : grown A (fun _ => none) r = A := by
  funext n
  simp [grown]

theorem paper_prepared (fs : FS) (hf : small.files fs) : Prepared both ⟨fs, fun _ => []⟩ paperEnv (fun _ => False) := by
  have hb := paper_begins false true slowly fs [] hf (by intro h; cases h)
  refine ⟨.new _ hf, ⟨_, rfl⟩, ⟨(by nofun), (by nofun), (by nofun), (by nofun), (by nofun), (by nofun), (by nofun)⟩, fun r => ?_⟩
  have hg : grown trees (fun _ => none) r = trees := grown_none trees r
  show Begins (paper false true slowly) both 0 { paperEnv.made with fs := fs, db := [], subs := grown trees (fun _ => none) r } _
  rw [hg]
  exact ⟨paper_both, hf, hb.new, hb.guarded, hb.upToDate, hb.clears⟩

/-- The files that there are before the command. -/
def written : FS := works 10 20 fun _ => none

/-- The two projects meet the conditions of the theorems. -/
example : Separate [albumEnv, paperEnv] ∧ ∀ e ∈ [albumEnv, paperEnv], Prepared both ⟨written, fun _ => []⟩ e (fun _ => False) := by
  have hf : small.files written := works_small 10 20 (by decide) (by decide) _ (by nofun)
  refine ⟨two_separate, fun e he => ?_⟩
  rcases List.mem_cons.1 he with rfl | he
  · exact album_prepared written hf
  · obtain rfl : e = paperEnv := by simpa using he
    exact paper_prepared written hf

/-- Both are built: the page, the image that it adds, and the paper. -/
theorem two_built : (buildAll 5 30 [albumEnv, paperEnv] ⟨written, fun _ => []⟩).1.map (·.1) = [.done, .done] ∧
    ((buildAll 5 30 [albumEnv, paperEnv] ⟨written, fun _ => []⟩).2.2.fs "doc.html".toList,
      (buildAll 5 30 [albumEnv, paperEnv] ⟨written, fun _ => []⟩).2.2.fs "fig.svg".toList,
      (buildAll 5 30 [albumEnv, paperEnv] ⟨written, fun _ => []⟩).2.2.fs "doc.pdf".toList) = (some [6], some [12], some [5]) := by
  decide +kernel

/-- **C80.** But the command ends as if all was well when files are missing and nothing was built: only the printed status tells. -/
theorem C80_exit_refuted : ∃ (U : Scope) (es : List Env) (d : Disk), Separate es ∧ (∀ e ∈ es, Prepared U d e (fun _ => False)) ∧
    (buildAll 5 30 es d).2.1 = .finished ∧ (buildAll 5 30 es d).1.map (·.1) = [.missingParameters] ∧
    (buildAll 5 30 es d).2.2.fs "doc.html".toList = none := by
  refine ⟨both, [albumEnv], ⟨fun _ => none, fun _ => []⟩, List.pairwise_singleton _ _, fun e he => ?_, ?_, ?_, ?_⟩
  · obtain rfl : e = albumEnv := by simpa using he
    exact album_prepared _ (by nofun)
  · have h : (match (buildAll 5 30 [albumEnv] ⟨fun _ => none, fun _ => []⟩).2.1 with | .finished => true | _ => false) = true := by decide +kernel
    revert h
    cases (buildAll 5 30 [albumEnv] ⟨fun _ => none, fun _ => []⟩).2.1 <;> simp
  · decide +kernel
  · decide +kernel

end Verif.Build
