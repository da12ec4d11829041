import Verif.Props.BuildAdds
import Verif.Spec.Cli

/-! # Lemmas about the command `build` -/

namespace Verif.Build

open Verif Verif.Decider Verif.Builder

variable {P : Project} {U : Scope} {A : Nat → List Nat} {a : Adds} {free : Ghost}

theorem rootBuild_out (hs : Sound P U) (hf : Fits P A a)
    (hcl : ∀ r n g, P.node n = some (.group g) → g.clear = true → g.parallel = false → ∀ b m c, grown A a r n = b ++ m :: c → b ≠ [] →
      ∀ i, Part P (grown A a r) m i → free i) (k root : Nat) (w : World) (S : Nat → Prop) (hh : Held P U A a free w S)
    (hg : Guarded P (grown A a w.runs) S root) : ∃ S', Out P U A a free root w S (P.rootBuild a k root w).2 S' := by
  unfold Project.rootBuild
  cases hn : P.node root with
  | none => exact ⟨S, .refl hh⟩
  | some nd =>
    cases nd with
    | step s => exact ⟨S, .refl hh⟩
    | group g =>
      exact onSubs_out (build_adds hf (opsAdds_good hs hf hcl k) root g hs hn ⟨w.subs root, w⟩ S ⟨hh, hh.inv.left root, hh.fix root⟩ hg
        (fun r => hcl r root g hn))

theorem cliLoop_out (hs : Sound P U) (hf : Fits P A a)
    (hcl : ∀ r n g, P.node n = some (.group g) → g.clear = true → g.parallel = false → ∀ b m c, grown A a r n = b ++ m :: c → b ≠ [] →
      ∀ i, Part P (grown A a r) m i → free i) (k root rounds : Nat) (st : Status) (w : World) (S : Nat → Prop)
    (hh : Held P U A a free w S) (hg : Guarded P (grown A a w.runs) S root) :
    ∃ S', Out P U A a free root w S (P.cliLoop a k root rounds st w).2 S' ∧
      ((P.cliLoop a k root rounds st w).1 = some (.ok .done) →
        ∀ i, Part P (grown A a (P.cliLoop a k root rounds st w).2.runs) root i → S' i) := by
  have hO := opsAdds_good hs hf hcl (k + 1)
  induction rounds generalizing st w S with
  | zero => exact ⟨S, .refl hh, fun h => by cases h⟩
  | succ r ih =>
    unfold Project.cliLoop
    by_cases hb : st = .ready ∨ st = .building
    · rw [if_pos hb]
      obtain ⟨S2, h2⟩ := rootBuild_out hs hf hcl k root w S hh hg
      generalize P.rootBuild a k root w = q at h2 ⊢
      obtain ⟨x, w2⟩ := q
      cases x with
      | error e => exact ⟨S2, h2, fun h => by cases h⟩
      | ok st2 =>
        obtain ⟨S3, h3, h4⟩ := ih st2 w2 S2 h2.held (h2.guarded hf hg)
        exact ⟨S3, h2.trans h3, h4⟩
    · rw [if_neg hb]
      obtain ⟨S2, h2, h3⟩ := (hO.asks _).status root w S hh.inv
      have h3' := fun h => h3 h (.inl hg)
      have hq2 := hO.quiet.status root w
      generalize (P.opsAdds a (k + 1)).status root w = q at h2 h3' hq2 ⊢
      obtain ⟨x, w2⟩ := q
      have ho2 : Out P U A a free root w S w2 S2 := .quiet hh h2 hq2
      cases x with
      | error e => exact ⟨S2, ho2, fun h => by cases h⟩
      | ok st2 =>
        refine ⟨S2, ho2, fun h => ?_⟩
        show ∀ i, Part P (grown A a w2.runs) root i → S2 i
        rw [hq2.1]
        exact h3' (by injection h)

theorem buildCli_out (hs : Sound P U) (hf : Fits P A a)
    (hcl : ∀ r n g, P.node n = some (.group g) → g.clear = true → g.parallel = false → ∀ b m c, grown A a r n = b ++ m :: c → b ≠ [] →
      ∀ i, Part P (grown A a r) m i → free i) (k root rounds : Nat) (w : World) (S : Nat → Prop)
    (hh : Held P U A a free w S) (hg : Guarded P (grown A a w.runs) S root) :
    ∃ S', Out P U A a free root w S (P.buildCli a k root rounds w).2 S' ∧
      ((P.buildCli a k root rounds w).1 = some (.ok .done) →
        ∀ i, Part P (grown A a (P.buildCli a k root rounds w).2.runs) root i → S' i) := by
  have hO := opsAdds_good hs hf hcl (k + 1)
  unfold Project.buildCli
  obtain ⟨S1, h1, _⟩ := (hO.asks _).status root w S hh.inv
  have hq1 := hO.quiet.status root w
  generalize (P.opsAdds a (k + 1)).status root w = q at h1 hq1 ⊢
  obtain ⟨st, w1⟩ := q
  have ho1 : Out P U A a free root w S w1 S1 := .quiet hh h1 hq1
  cases st with
  | error e => exact ⟨S1, ho1, fun h => by cases h⟩
  | ok st =>
    obtain ⟨S2, h2, h3⟩ := cliLoop_out hs hf hcl k root rounds st w1 S1 ho1.held (ho1.guarded hf hg)
    exact ⟨S2, ho1.trans h2, h3⟩

/-- What is known after the loop of the command for a project. -/
theorem BeginsAdds.cli {root : Nat} {w : World} {S : Nat → Prop} (hb : BeginsAdds P U a root w S)
    (ht : Truthful P.cfg U w.db) (depth rounds : Nat) :
    ∃ S', Out P U w.subs a ⟨fun i => ∀ s, P.node i = some (.step s) → w.fs s.out = none ∨ S i, w.db⟩ root w S
        (P.buildCli a depth root rounds w).2 S' ∧
      ((P.buildCli a depth root rounds w).1 = some (.ok .done) →
        ∀ i, Part P (grown w.subs a (P.buildCli a depth root rounds w).2.runs) root i → S' i) := by
  have hg : grown w.subs a w.runs = w.subs := grown_new (w := w) (fun i => (hb.2 w.runs).new i) a
  have h0 := (hb.2 w.runs).inv ht
  simp only [hg] at h0
  refine buildCli_out (hb.2 w.runs).sound hb.1 ?_ depth root rounds w S ⟨by rw [hg]; exact h0, fun k _ => by rw [hg]⟩ ?_
  · exact fun r n g hn hc hp b m c hl hne i hi s hs => (hb.2 r).clears n g hn hc hp b m c hl hne i s hi hs
  · exact (hb.2 w.runs).guarded.mono (fun _ h => absurd h id)

theorem rootBuild_keeps {R : World → World → Prop} (hR : Rel P R) (a : Adds) (k root : Nat) (w : World) :
    R w (P.rootBuild a k root w).2 := by
  unfold Project.rootBuild
  cases P.node root with
  | none => exact hR.refl w
  | some nd =>
    cases nd with
    | step s => exact hR.refl w
    | group g => exact onSubs_keep hR (build_keep hR (opsAdds_keep hR a k) root g g.parallel g.clear) root w

theorem cliLoop_keeps {R : World → World → Prop} (hR : Rel P R) (a : Adds) (k root rounds : Nat) (st : Status) (w : World) :
    R w (P.cliLoop a k root rounds st w).2 := by
  induction rounds generalizing st w with
  | zero => exact hR.refl w
  | succ r ih =>
    unfold Project.cliLoop
    by_cases hb : st = .ready ∨ st = .building
    · rw [if_pos hb]
      have h2 := rootBuild_keeps hR a k root w
      generalize P.rootBuild a k root w = q at h2 ⊢
      obtain ⟨x, w2⟩ := q
      cases x with
      | error e => exact h2
      | ok st2 => exact hR.trans _ _ _ h2 (ih st2 w2)
    · rw [if_neg hb]
      have h2 := (opsAdds_keep hR a (k + 1)).status root w
      generalize (P.opsAdds a (k + 1)).status root w = q at h2 ⊢
      obtain ⟨x, w2⟩ := q
      cases x <;> exact h2

theorem buildCli_keeps {R : World → World → Prop} (hR : Rel P R) (a : Adds) (k root rounds : Nat) (w : World) :
    R w (P.buildCli a k root rounds w).2 := by
  unfold Project.buildCli
  have h2 := (opsAdds_keep hR a (k + 1)).status root w
  generalize (P.opsAdds a (k + 1)).status root w = q at h2 ⊢
  obtain ⟨x, w2⟩ := q
  cases x with
  | error e => exact h2
  | ok st => exact hR.trans _ _ _ h2 (cliLoop_keeps hR a k root rounds st w2)

/-- The command changes only files that some project makes. -/
theorem buildAll_sources (depth rounds : Nat) (es : List Env) (d : Disk) (p : Str)
    (hp : ∀ e ∈ es, ¬ Made e.project (fun _ => True) p) : (buildAll depth rounds es d).2.2.fs p = d.fs p := by
  induction es generalizing d with
  | nil => rfl
  | cons e es ih =>
    unfold buildAll
    have h1 : (e.project.buildCli e.adds depth e.root rounds (e.at d)).2.fs p = d.fs p :=
      buildCli_keeps sources_rel e.adds depth e.root rounds (e.at d) p (hp e (by simp))
    generalize e.project.buildCli e.adds depth e.root rounds (e.at d) = q at h1 ⊢
    obtain ⟨r, w⟩ := q
    rcases r with _ | (x | st)
    · exact h1
    · exact h1
    · simp only at h1 ⊢
      rw [← h1]
      exact ih (e.left d w) (fun e' he' => hp e' (by simp [he']))

/-- Files that the steps of a project make or use are the same. -/
def SameFor (P : Project) (fs fs' : FS) : Prop :=
  ∀ i s, P.node i = some (.step s) → fs' s.out = fs s.out ∧ ∀ p, Item.path p ∈ s.parameters → fs' p = fs p

theorem current_same {fs fs' : FS} {i : Nat} {s : Step} (h : SameFor P fs fs') (hn : P.node i = some (.step s)) (hc : Current fs s) :
    Current fs' s := by
  obtain ⟨bs, h1, h2⟩ := hc
  refine ⟨bs, ?_, by rw [(h i s hn).1]; exact h2⟩
  unfold Contents at *
  rw [← h1]
  refine List.map_congr_left (fun it hit => ?_)
  cases it with
  | other b => rfl
  | path p => exact (h i s hn).2 p hit

theorem digests_same {c : Cfg} {fs fs' : FS} {i : Nat} {s : Step} {k o : Bytes} (h : SameFor P fs fs') (hn : P.node i = some (.step s))
    (hd : Digests c fs s k o) : Digests c fs' s k o := by
  obtain ⟨h1, h2⟩ := h i s hn
  refine ⟨?_, ?_⟩
  · rw [hashItems_congr c (fs' := fs) (fun p hp => ?_)]
    · exact hd.1
    · rcases List.mem_append.1 hp with hp | hp
      · exact h2 p hp
      · simp at hp
  · rw [hashItems_congr c (fs' := fs) (fun p hp => ?_)]
    · exact hd.2
    · have : p = s.out := by simpa using hp
      rw [this]; exact h1

theorem begins_same {root : Nat} {w : World} {S : Nat → Prop} {fs' : FS} {db' : Dict Bytes Bytes} (hb : Begins P U root w S)
    (h : SameFor P w.fs fs') (hf : U.files fs') (hm : Remembers P.cfg U w.db db') : Begins P U root { w with fs := fs', db := db' } S where
  sound := hb.sound
  files := hf
  new := hb.new
  guarded := hb.guarded
  upToDate i hi := by
    obtain ⟨s, k, o, h1, h2, h3, h4⟩ := hb.upToDate i hi
    exact ⟨s, k, o, h1, digests_same h h1 h2, hm s w.fs k o (hb.sound.known _ _ h1) hb.files h2 h3, h4⟩
  clears n g hn hc hp b m c hl hne i s hi hs := by
    rcases hb.clears n g hn hc hp b m c hl hne i s hi hs with h1 | h1
    · exact .inl ((h i s hs).1.trans h1)
    · exact .inr h1

theorem Prepared.same {d d' : Disk} {e : Env} {S : Nat → Prop} (hp : Prepared U d e S) (h : SameFor e.project d.fs d'.fs)
    (hpast : PastCli e.project.cfg U d'.fs (d'.dbs e.cache)) (hf : U.files d'.fs)
    (hm : Remembers e.project.cfg U (d.dbs e.cache) (d'.dbs e.cache)) : Prepared U d' e S :=
  ⟨hpast, hp.2.1, hp.2.2.1, fun r => begins_same
    (w := { e.made with fs := d.fs, db := d.dbs e.cache, subs := grown e.made.subs e.adds r }) (hp.2.2.2 r) h hf hm⟩

/-- A project that does not make what another one makes or uses keeps its files. -/
theorem apart_same {P Q : Project} (h : Apart P Q) {fs fs' : FS} (hs : ∀ p, ¬ Made P (fun _ => True) p → fs' p = fs p) : SameFor Q fs fs' := by
  intro j t hj
  refine ⟨hs _ ?_, fun p hp => hs _ ?_⟩
  · rintro ⟨i, s, _, hi, ho⟩
    exact (h i j s t hi hj).1 ho
  · rintro ⟨i, s, _, hi, ho⟩
    exact (h i j s t hi hj).2 (ho ▸ hp)

end Verif.Build
