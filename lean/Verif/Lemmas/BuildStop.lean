import Verif.Lemmas.BuildAddsRun
import Verif.Model.BuildStop

/-! # Lemmas about builds that are interrupted -/

namespace Verif.Build

open Verif Verif.Decider Verif.Builder

variable {P : Project} {U : Scope} {A : Nat → List Nat} {a : Adds} {free : Ghost}

theorem Stop.after_snd {α : Type} (stop : Stop) (x : Except Builder.Err α × World) : (stop.after x).2 = x.2 := by
  unfold Stop.after
  split <;> rfl

theorem Stop.after_ok {α : Type} {stop : Stop} {x : Except Builder.Err α × World} {c : α} (h : (stop.after x).1 = .ok c) : stop.after x = x := by
  unfold Stop.after at h ⊢
  split
  · rename_i hs; rw [if_pos hs] at h; cases h
  · rfl

/-- The status of a step is given, or the process is interrupted. -/
theorem stepStatusStop_cases (stop : Stop) (i : Nat) (s : Step) (w : World) :
    P.stepStatusStop stop i s w = P.stepStatus i s w ∨
    ((P.stepStatusStop stop i s w).1 = .error .exception ∧
      ((P.stepStatusStop stop i s w).2 = w ∨ (P.stepStatusStop stop i s w).2 = P.tick w ∨
        (P.stepStatusStop stop i s w).2 = (P.stepStatus i s w).2)) := by
  unfold Project.stepStatusStop
  by_cases h1 : stop w = true
  · rw [if_pos h1]; exact .inr ⟨rfl, .inl rfl⟩
  · rw [if_neg h1]
    by_cases h2 : stop (P.tick w) = true
    · rw [if_pos h2]; exact .inr ⟨rfl, .inr (.inl rfl)⟩
    · rw [if_neg h2]
      unfold Stop.after
      split
      · exact .inr ⟨rfl, .inr (.inr rfl)⟩
      · exact .inl rfl

theorem Inv.stepStatusStop {B : Nat → List Nat} {w : World} {S : Nat → Prop} (hs : Sound P U) (hI : Inv P U B free w S) {i : Nat} {s : Step}
    (hn : P.node i = some (.step s)) (stop : Stop) :
    ∃ S', Next P U B free w S (P.stepStatusStop stop i s w).2 S' ∧
      ((P.stepStatusStop stop i s w).1 = .ok .done → (Covered P S s ∨ free i) → S' i) ∧
      ((P.stepStatusStop stop i s w).1 = .ok .ready ∨ (P.stepStatusStop stop i s w).1 = .ok .building →
        AllIn (P.stepStatusStop stop i s w).2.fs s ∧ ¬ S' i ∧ ((P.stepStatusStop stop i s w).2.leaf i).parametersFound = true) := by
  obtain ⟨S1, h1, h2, h3⟩ := hI.stepStatus hs hn
  rcases stepStatusStop_cases (P := P) stop i s w with h | ⟨h, h' | h' | h'⟩
  · rw [h]
    exact ⟨S1, h1, h2, fun hx => ⟨(h3 hx).1, (h3 hx).2.1, (h3 hx).2.2.1⟩⟩
  · rw [h, h']; exact ⟨S, .refl hI, (fun h => by cases h), (fun h => by rcases h with h | h <;> cases h)⟩
  · rw [h, h']; exact ⟨S, hI.tick hs, (fun h => by cases h), (fun h => by rcases h with h | h <;> cases h)⟩
  · rw [h, h']; exact ⟨S1, h1, (fun h => by cases h), (fun h => by rcases h with h | h <;> cases h)⟩

theorem stepStatusStop_quiet (stop : Stop) (i : Nat) (s : Step) (w : World) : Quiet w (P.stepStatusStop stop i s w).2 := by
  rcases stepStatusStop_cases (P := P) stop i s w with h | ⟨_, h' | h' | h'⟩
  · rw [h]; exact stepStatus_quiet i s w
  · rw [h']; exact .refl w
  · rw [h']; exact tick_quiet w
  · rw [h']; exact stepStatus_quiet i s w

theorem stepStatusStop_keep {R : World → World → Prop} (hR : Rel P R) (stop : Stop) (i : Nat) (s : Step) (w : World) :
    R w (P.stepStatusStop stop i s w).2 := by
  rcases stepStatusStop_cases (P := P) stop i s w with h | ⟨_, h' | h' | h'⟩
  · rw [h]; exact stepStatus_keep hR i s w
  · rw [h']; exact hR.refl w
  · rw [h']; exact hR.tick w
  · rw [h']; exact stepStatus_keep hR i s w

theorem runStop_cases (stop : Stop) (i : Nat) (s : Step) (w : World) :
    (P.runStop stop i s w).2 = P.run i s w ∨
      (s.instant = true ∧ (P.runStop stop i s w).2 = { w with fs := put w.fs s.out (some (s.result w.fs)) }) := by
  unfold Project.runStop
  split
  · rename_i h; exact .inr ⟨h.1, rfl⟩
  · exact .inl (Stop.after_snd _ _)

theorem Inv.stepBuildStop {B : Nat → List Nat} {w : World} {S : Nat → Prop} (hs : Sound P U) (hI : Inv P U B free w S) {i : Nat} {s : Step}
    (hn : P.node i = some (.step s)) (hc : Covered P S s) (stop : Stop) : ∃ S', Next P U B free w S (P.stepBuildStop stop i s w).2 S' := by
  obtain ⟨S1, h1, _, h3⟩ := hI.stepStatusStop hs hn stop
  unfold Project.stepBuildStop
  generalize P.stepStatusStop stop i s w = q at h1 h3 ⊢
  obtain ⟨r, w1⟩ := q
  cases r with
  | error e => exact ⟨S1, h1⟩
  | ok st =>
    simp only at h1 h3 ⊢
    have key : ∃ S2, Next P U B free w S (if st = .building ∨ st = .ready then P.runStop stop i s w1 else (.ok (), w1)).2 S2 := by
      by_cases hst : st = .building ∨ st = .ready
      · rw [if_pos hst]
        obtain ⟨ha, hS, hp⟩ := h3 (by rcases hst with rfl | rfl <;> simp)
        rcases runStop_cases (P := P) stop i s w1 with h | ⟨_, h⟩
        · rw [h]
          obtain ⟨S2, h2, _⟩ := h1.inv.run hs hn (hc.mono h1.more) ha hS hp
          exact ⟨S2, h1.trans h2⟩
        · rw [h]
          obtain ⟨h2, _⟩ := h1.inv.write hs hn (hc.mono h1.more) ha
          exact ⟨S1, h1.trans ⟨fun _ h => h, h2, fun _ _ => rfl⟩⟩
      · rw [if_neg hst]; exact ⟨S1, h1⟩
    obtain ⟨S2, h2⟩ := key
    generalize (if st = .building ∨ st = .ready then P.runStop stop i s w1 else (.ok (), w1)) = q at h2 ⊢
    obtain ⟨r, w2⟩ := q
    cases r with
    | error e => exact ⟨S2, h2⟩
    | ok u =>
      simp only at h2 ⊢
      obtain ⟨S3, h4, _⟩ := h2.inv.stepStatusStop hs hn stop
      generalize P.stepStatusStop stop i s w2 = q at h4 ⊢
      obtain ⟨r, w3⟩ := q
      cases r <;> exact ⟨S3, h2.trans h4⟩

theorem runStop_runs (stop : Stop) (i : Nat) (s : Step) (w : World) :
    (P.runStop stop i s w).2.subs = w.subs ∧ ∀ j, j ≠ i → (P.runStop stop i s w).2.runs j = w.runs j := by
  rcases runStop_cases (P := P) stop i s w with h | ⟨_, h⟩
  · rw [h]; exact run_runs i s w
  · rw [h]; exact ⟨rfl, fun _ _ => rfl⟩

theorem stepBuildStop_runs (stop : Stop) (i : Nat) (s : Step) (w : World) :
    (P.stepBuildStop stop i s w).2.subs = w.subs ∧ ∀ j, j ≠ i → (P.stepBuildStop stop i s w).2.runs j = w.runs j := by
  unfold Project.stepBuildStop
  have h1 := stepStatusStop_quiet (P := P) stop i s w
  generalize P.stepStatusStop stop i s w = q at h1 ⊢
  obtain ⟨r, w1⟩ := q
  cases r with
  | error e => exact ⟨h1.2, fun j _ => congrFun h1.1 j⟩
  | ok st =>
    simp only at h1 ⊢
    have h2 : (if st = .building ∨ st = .ready then P.runStop stop i s w1 else (.ok (), w1)).2.subs = w.subs ∧
        ∀ j, j ≠ i → (if st = .building ∨ st = .ready then P.runStop stop i s w1 else (.ok (), w1)).2.runs j = w.runs j := by
      split
      · have := runStop_runs (P := P) stop i s w1
        exact ⟨this.1.trans h1.2, fun j hj => (this.2 j hj).trans (congrFun h1.1 j)⟩
      · exact ⟨h1.2, fun j _ => congrFun h1.1 j⟩
    generalize (if st = .building ∨ st = .ready then P.runStop stop i s w1 else (.ok (), w1)) = q at h2 ⊢
    obtain ⟨r, w2⟩ := q
    cases r with
    | error e => exact h2
    | ok u =>
      simp only at h2 ⊢
      have h3 := stepStatusStop_quiet (P := P) stop i s w2
      generalize P.stepStatusStop stop i s w2 = q at h3 ⊢
      obtain ⟨r, w3⟩ := q
      cases r <;> exact ⟨h3.2.trans h2.1, fun j hj => (congrFun h3.1 j).trans (h2.2 j hj)⟩

theorem stepBuildAddsStop_out (hs : Sound P U) (hf : Fits P A a) (stop : Stop) {i : Nat} {s : Step} (hn : P.node i = some (.step s))
    {w : World} {S : Nat → Prop} (hh : Held P U A a free w S) (hc : Covered P S s) :
    ∃ S', Out P U A a free i w S (P.stepBuildAddsStop a stop i s w).2 S' := by
  obtain ⟨S1, h1⟩ := hh.inv.stepBuildStop hs hn hc stop
  obtain ⟨hsub, hruns⟩ := stepBuildStop_runs (P := P) stop i s w
  exact ⟨S1, adds_out hf hn hh h1 hsub hruns⟩

theorem stepRecordStop_cases (stop : Stop) (s : Step) (w : World) :
    (P.stepRecordStop stop s w).2 = w ∨ ∃ b w', P.stepRecord s w = some (b, w') ∧ (P.stepRecordStop stop s w).2 = w' := by
  unfold Project.stepRecordStop
  split
  · exact .inl rfl
  · cases h : P.stepRecord s w with
    | none => exact .inl rfl
    | some q => exact .inr ⟨q.1, q.2, rfl, Stop.after_snd _ _⟩

theorem stepRecord_world {s : Step} {w w' : World} {b : Bool} (h : P.stepRecord s w = some (b, w')) : ∃ db, w' = { w with db := db } := by
  unfold Project.stepRecord at h
  cases hb : P.cfg.buildNeeded w.fs w.db s.inputs (.path s.out) true with
  | none => rw [hb] at h; cases h
  | some q =>
    rw [hb] at h
    simp only [Option.map_some, Option.some.injEq, Prod.mk.injEq] at h
    exact ⟨q.2, h.2.symm⟩

theorem opsStop_quiet (a : Adds) (stop : Stop) (k : Nat) : QuietOps (P.opsStop a stop k) := by
  induction k with
  | zero => exact ⟨fun _ w => .refl w, fun _ w => .refl w⟩
  | succ k ih =>
    refine ⟨?_, ?_⟩ <;> intro n w <;> simp only [Project.opsStop] <;> cases hn : P.node n with
    | none => exact .refl w
    | some nd => ?_
    · cases nd with
      | step s => exact stepStatusStop_quiet stop n s w
      | group g => exact onSubs_quiet (compStatus_quiet ih n g) (compStatus_stay _ n g) n w
    · cases nd with
      | step s =>
        simp only
        rcases stepRecordStop_cases (P := P) stop s w with h | ⟨b, w', h1, h⟩
        · rw [h]; exact .refl w
        · obtain ⟨db, rfl⟩ := stepRecord_world h1
          rw [h]; exact ⟨rfl, rfl⟩
      | group g => exact groupRecord_quiet ih n g w

theorem opsStop_asks (hs : Sound P U) (B : Nat → List Nat) (a : Adds) (stop : Stop) (k : Nat) : Asks P U B free (P.opsStop a stop k) := by
  induction k with
  | zero => exact ⟨fun n w S h => ⟨S, .refl h, fun h => by cases h⟩, fun n w S h _ => ⟨S, .refl h⟩⟩
  | succ k ih =>
    have hp := asks_level (O' := ⟨P.askStatus (P.opsStop a stop k), fun _ w => (.error .exception, w), P.askRecord (P.opsStop a stop k)⟩)
      hs ih rfl rfl
    refine ⟨?_, ?_⟩
    · intro n w S hI
      have h0 := hp.status n w S hI
      simp only [Project.askStatus] at h0
      simp only [Project.opsStop]
      cases hn : P.node n with
      | none => exact ⟨S, .refl hI, fun h => by cases h⟩
      | some nd =>
        rw [hn] at h0
        cases nd with
        | group g => exact h0
        | step s =>
          simp only
          obtain ⟨S1, h1, h2, _⟩ := hI.stepStatusStop hs hn stop
          refine ⟨S1, h1, ?_⟩
          intro hd hg i hi
          rw [part_step hn hi]
          refine h2 hd ?_
          rcases hg with h | h
          · exact .inl (guarded_step hn h)
          · exact .inr (h n (.step n s hn))
    · intro n w S hI hpart
      have h0 := hp.record n w S hI hpart
      simp only [Project.askRecord] at h0
      simp only [Project.opsStop]
      cases hn : P.node n with
      | none => exact ⟨S, .refl hI⟩
      | some nd =>
        rw [hn] at h0
        cases nd with
        | group g => exact h0
        | step s =>
          simp only at h0 ⊢
          rcases stepRecordStop_cases (P := P) stop s w with h | ⟨b, w', h1, h⟩
          · rw [h]; exact ⟨S, .refl hI⟩
          · rw [h1] at h0; rw [h]; exact h0

theorem opsStop_good (hs : Sound P U) (hf : Fits P A a)
    (hcl : ∀ r n g, P.node n = some (.group g) → g.clear = true → g.parallel = false → ∀ b m c, grown A a r n = b ++ m :: c → b ≠ [] →
      ∀ i, Part P (grown A a r) m i → free i) (stop : Stop) (k : Nat) : GoodA P U A a free (P.opsStop a stop k) := by
  refine ⟨fun B => opsStop_asks hs B a stop k, opsStop_quiet a stop k, ?_⟩
  induction k with
  | zero => exact fun n w S h _ => ⟨S, .refl h⟩
  | succ k ih =>
    intro n w S hh hg
    simp only [Project.opsStop]
    cases hn : P.node n with
    | none => exact ⟨S, .refl hh⟩
    | some nd =>
      cases nd with
      | step s => exact stepBuildAddsStop_out hs hf stop hn hh (guarded_step hn hg)
      | group g =>
        have hb := build_adds hf ⟨fun B => opsStop_asks hs B a stop k, opsStop_quiet a stop k, ih⟩ n g hs hn ⟨w.subs n, w⟩ S
          ⟨hh, hh.inv.left n, hh.fix n⟩ hg (fun r => hcl r n g hn)
        obtain ⟨S1, h1⟩ := onSubs_out hb
        refine ⟨S1, ?_⟩
        simp only
        generalize onSubs n (Builder.build (P.subsOf (P.opsStop a stop k) n g) g.parallel g.clear) w = q at h1 ⊢
        obtain ⟨r, w1⟩ := q
        cases r <;> exact h1

/-- What is known of the loop of a build, whatever the builders do. -/
theorem buildOn_out (hf : Fits P A a) {O : Ops} (hO : GoodA P U A a free O) (root rounds : Nat) (w : World) (S : Nat → Prop)
    (hh : Held P U A a free w S) (hg : Guarded P (grown A a w.runs) S root) :
    ∃ S', Out P U A a free root w S (buildOn O root rounds w).2 S' := by
  induction rounds generalizing w S with
  | zero => exact ⟨S, .refl hh⟩
  | succ r ih =>
    unfold buildOn
    obtain ⟨S1, h1, _⟩ := (hO.asks _).status root w S hh.inv
    have hq1 := hO.quiet.status root w
    generalize O.status root w = q at h1 hq1 ⊢
    obtain ⟨st, w1⟩ := q
    have ho1 : Out P U A a free root w S w1 S1 := .quiet hh h1 hq1
    cases st with
    | error e => exact ⟨S1, ho1⟩
    | ok st =>
      simp only
      have hg1 := ho1.guarded hf hg
      by_cases hb : st = .building ∨ st = .ready
      · rw [if_pos hb]
        obtain ⟨S2, h2⟩ := hO.build root w1 S1 ho1.held hg1
        generalize O.build root w1 = q at h2 ⊢
        obtain ⟨x, w2⟩ := q
        cases x with
        | error e => exact ⟨S2, ho1.trans h2⟩
        | ok u =>
          obtain ⟨S3, h3⟩ := ih w2 S2 h2.held (h2.guarded hf hg1)
          exact ⟨S3, (ho1.trans h2).trans h3⟩
      · rw [if_neg hb]
        obtain ⟨S2, h2, _⟩ := (hO.asks _).status root w1 S1 ho1.held.inv
        have hq2 := hO.quiet.status root w1
        generalize O.status root w1 = q at h2 hq2 ⊢
        obtain ⟨x, w2⟩ := q
        have ho2 : Out P U A a free root w1 S1 w2 S2 := .quiet ho1.held h2 hq2
        cases x <;> exact ⟨S2, ho1.trans ho2⟩

/-- … and of the loop of the command. -/
theorem cliLoopOn_out (hs : Sound P U) (hf : Fits P A a)
    (hcl : ∀ r n g, P.node n = some (.group g) → g.clear = true → g.parallel = false → ∀ b m c, grown A a r n = b ++ m :: c → b ≠ [] →
      ∀ i, Part P (grown A a r) m i → free i) {O O1 : Ops} (hO : GoodA P U A a free O) (hO1 : GoodA P U A a free O1) (root rounds : Nat)
    (st : Status) (w : World) (S : Nat → Prop) (hh : Held P U A a free w S) (hg : Guarded P (grown A a w.runs) S root) :
    ∃ S', Out P U A a free root w S (P.cliLoopOn O O1 root rounds st w).2 S' := by
  induction rounds generalizing st w S with
  | zero => exact ⟨S, .refl hh⟩
  | succ r ih =>
    unfold Project.cliLoopOn
    by_cases hb : st = .ready ∨ st = .building
    · rw [if_pos hb]
      cases hn : P.node root with
      | none => exact ⟨S, .refl hh⟩
      | some nd =>
        cases nd with
        | step s => exact ⟨S, .refl hh⟩
        | group g =>
          simp only
          obtain ⟨S2, h2⟩ := onSubs_out (build_adds hf hO root g hs hn ⟨w.subs root, w⟩ S ⟨hh, hh.inv.left root, hh.fix root⟩ hg
            (fun r => hcl r root g hn))
          generalize onSubs root (Builder.build (P.subsOf O root g) g.parallel g.clear) w = q at h2 ⊢
          obtain ⟨x, w2⟩ := q
          cases x with
          | error e => exact ⟨S2, h2⟩
          | ok st2 =>
            obtain ⟨S3, h3⟩ := ih st2 w2 S2 h2.held (h2.guarded hf hg)
            exact ⟨S3, h2.trans h3⟩
    · rw [if_neg hb]
      obtain ⟨S2, h2, _⟩ := (hO1.asks _).status root w S hh.inv
      have hq2 := hO1.quiet.status root w
      generalize O1.status root w = q at h2 hq2 ⊢
      obtain ⟨x, w2⟩ := q
      have ho2 : Out P U A a free root w S w2 S2 := .quiet hh h2 hq2
      cases x <;> exact ⟨S2, ho2⟩

theorem cliStop_out (hs : Sound P U) (hf : Fits P A a)
    (hcl : ∀ r n g, P.node n = some (.group g) → g.clear = true → g.parallel = false → ∀ b m c, grown A a r n = b ++ m :: c → b ≠ [] →
      ∀ i, Part P (grown A a r) m i → free i) (stop : Stop) (k root rounds : Nat) (w : World) (S : Nat → Prop)
    (hh : Held P U A a free w S) (hg : Guarded P (grown A a w.runs) S root) :
    ∃ S', Out P U A a free root w S (P.cliStop a stop k root rounds w).2 S' := by
  have hO := opsStop_good hs hf hcl stop (k + 1)
  unfold Project.cliStop
  obtain ⟨S1, h1, _⟩ := (hO.asks _).status root w S hh.inv
  have hq1 := hO.quiet.status root w
  generalize (P.opsStop a stop (k + 1)).status root w = q at h1 hq1 ⊢
  obtain ⟨st, w1⟩ := q
  have ho1 : Out P U A a free root w S w1 S1 := .quiet hh h1 hq1
  cases st with
  | error e => exact ⟨S1, ho1⟩
  | ok st =>
    obtain ⟨S2, h2⟩ := cliLoopOn_out hs hf hcl (opsStop_good hs hf hcl stop k) hO root rounds st w1 S1 ho1.held (ho1.guarded hf hg)
    exact ⟨S2, ho1.trans h2⟩

/-! ### When a build begins -/

theorem grown_new {w : World} (h : New w) (a : Adds) : grown w.subs a w.runs = w.subs := by
  funext n
  unfold grown
  cases ha : a n with
  | none => simp
  | some q => simp [(h q.1).2]

/-- The invariant holds when a build begins. -/
theorem Begins.inv {P : Project} {U : Scope} {root : Nat} {w : World} {S : Nat → Prop} (hb : Begins P U root w S)
    (ht : Truthful P.cfg U w.db) :
    Inv P U w.subs ⟨fun i => ∀ s, P.node i = some (.step s) → w.fs s.out = none ∨ S i, w.db⟩ w S where
  truth := ht
  memory := fun _ _ _ _ _ _ _ h => h
  files := hb.files
  settled i hi := by
    obtain ⟨s, k, o, h1, h2, h3, h4⟩ := hb.upToDate i hi
    exact ⟨s, h1, ⟨k, o, h2, h3⟩, h4⟩
  started i s _ hf := by rw [(hb.new i).1] at hf; exact absurd rfl hf
  found i s _ hf := by rw [(hb.new i).1] at hf; cases hf
  running i s _ hf := by rw [(hb.new i).1] at hf; cases hf
  ended i s _ hf := by rw [(hb.new i).1] at hf; cases hf
  left n := .refl _ _
  absent i s hn h1 h2 := by
    rcases h1 s hn with h | h
    · exact absurd h h2
    · obtain ⟨t, _, _, h3, _, _, h4⟩ := hb.upToDate i h
      rw [hn] at h3
      injection h3 with h3; injection h3 with h3; subst h3
      exact h4
  plain i s _ _ := by rw [(hb.new i).1]; rfl
  once i s _ := .inl (hb.new i).2

/-- The invariant of a build with builders that are added holds when it begins. -/
theorem BeginsAdds.held {root : Nat} {w : World} {S : Nat → Prop} (hb : BeginsAdds P U a root w S) (ht : Truthful P.cfg U w.db) :
    Held P U w.subs a ⟨fun i => ∀ s, P.node i = some (.step s) → w.fs s.out = none ∨ S i, w.db⟩ w S ∧
      Guarded P (grown w.subs a w.runs) S root := by
  have hg : grown w.subs a w.runs = w.subs := grown_new (w := w) (fun i => (hb.2 w.runs).new i) a
  have h0 := (hb.2 w.runs).inv ht
  simp only [hg] at h0
  exact ⟨⟨by rw [hg]; exact h0, fun k _ => by rw [hg]⟩, (hb.2 w.runs).guarded.mono (fun _ h => absurd h id)⟩

theorem BeginsAdds.stopped {root : Nat} {w : World} {S : Nat → Prop} (hb : BeginsAdds P U a root w S) (ht : Truthful P.cfg U w.db)
    (stop : Stop) (depth rounds : Nat) :
    Truthful P.cfg U (P.buildStop a stop depth root rounds w).2.db ∧ U.files (P.buildStop a stop depth root rounds w).2.fs := by
  obtain ⟨h1, h2⟩ := hb.held ht
  obtain ⟨S', h3⟩ := buildOn_out hb.1 (opsStop_good (hb.2 w.runs).sound hb.1
    (fun r n g hn hc hp b m c hl hne i hi s hs => (hb.2 r).clears n g hn hc hp b m c hl hne i s hi hs) stop depth) root rounds w S h1 h2
  exact ⟨h3.held.inv.truth, h3.held.inv.files⟩

theorem BeginsAdds.cliStopped {root : Nat} {w : World} {S : Nat → Prop} (hb : BeginsAdds P U a root w S) (ht : Truthful P.cfg U w.db)
    (stop : Stop) (depth rounds : Nat) :
    Truthful P.cfg U (P.cliStop a stop depth root rounds w).2.db ∧ U.files (P.cliStop a stop depth root rounds w).2.fs ∧
      Remembers P.cfg U w.db (P.cliStop a stop depth root rounds w).2.db := by
  obtain ⟨h1, h2⟩ := hb.held ht
  obtain ⟨S', h3⟩ := cliStop_out (hb.2 w.runs).sound hb.1
    (fun r n g hn hc hp b m c hl hne i hi s hs => (hb.2 r).clears n g hn hc hp b m c hl hne i s hi hs) stop depth root rounds w S h1 h2
  exact ⟨h3.held.inv.truth, h3.held.inv.files, h3.held.inv.memory⟩

/-- Nothing is added. -/
theorem Begins.adds {root : Nat} {w : World} {S : Nat → Prop} (hb : Begins P U root w S) : BeginsAdds P U (fun _ => none) root w S := by
  refine ⟨⟨nofun, nofun, nofun, nofun, nofun, nofun, nofun⟩, fun r => ?_⟩
  have h : grown w.subs (fun _ => none) r = w.subs := by funext n; simp [grown]
  rw [h]; exact hb

/-! ### Relations that are kept -/

theorem stepBuildStop_keep {R : World → World → Prop} (hR : Rel P R) (stop : Stop) (i : Nat) (s : Step) (hn : P.node i = some (.step s))
    (hwrite : ∀ w, R w { w with fs := put w.fs s.out (some (s.result w.fs)) }) (w : World) :
    R w (P.stepBuildStop stop i s w).2 := by
  unfold Project.stepBuildStop
  have h1 := stepStatusStop_keep hR stop i s w
  generalize P.stepStatusStop stop i s w = q at h1 ⊢
  obtain ⟨r, w1⟩ := q
  cases r with
  | error e => exact h1
  | ok st =>
    simp only at h1 ⊢
    have h2 : R w (if st = .building ∨ st = .ready then P.runStop stop i s w1 else (.ok (), w1)).2 := by
      split
      · rcases runStop_cases (P := P) stop i s w1 with h | ⟨_, h⟩
        · rw [h]; exact hR.trans _ _ _ h1 (hR.run w1 i s hn)
        · rw [h]; exact hR.trans _ _ _ h1 (hwrite w1)
      · exact h1
    generalize (if st = .building ∨ st = .ready then P.runStop stop i s w1 else (.ok (), w1)) = q at h2 ⊢
    obtain ⟨r, w2⟩ := q
    cases r with
    | error e => exact h2
    | ok u =>
      simp only at h2 ⊢
      have h3 := stepStatusStop_keep hR stop i s w2
      generalize P.stepStatusStop stop i s w2 = q at h3 ⊢
      obtain ⟨r, w3⟩ := q
      cases r <;> exact hR.trans _ _ _ h2 h3

theorem opsStop_keep {R : World → World → Prop} (hR : Rel P R)
    (hwrite : ∀ i s w, P.node i = some (.step s) → R w { w with fs := put w.fs s.out (some (s.result w.fs)) }) (a : Adds) (stop : Stop)
    (k : Nat) : OpsKeep R (P.opsStop a stop k) := by
  induction k with
  | zero => exact ⟨fun _ w => hR.refl w, fun _ w => hR.refl w, fun _ w => hR.refl w⟩
  | succ k ih =>
    refine ⟨?_, ?_, ?_⟩ <;> intro n w <;> simp only [Project.opsStop] <;> cases hn : P.node n with
    | none => exact hR.refl w
    | some nd => ?_
    · cases nd with
      | step s => exact stepStatusStop_keep hR stop n s w
      | group g => exact onSubs_keep hR (compStatus_keep hR ih n g) n w
    · cases nd with
      | step s =>
        have h1 := stepBuildStop_keep hR stop n s hn (fun w => hwrite n s w hn) w
        simp only [Project.stepBuildAddsStop]
        generalize P.stepBuildStop stop n s w = q at h1 ⊢
        obtain ⟨r, w1⟩ := q
        simp only at h1 ⊢
        split
        · exact h1
        · exact hR.trans _ _ _ h1 (hR.subs _ _)
      | group g =>
        have h1 := onSubs_keep hR (build_keep hR ih n g g.parallel g.clear) n w
        simp only
        generalize onSubs n (Builder.build (P.subsOf (P.opsStop a stop k) n g) g.parallel g.clear) w = q at h1 ⊢
        obtain ⟨r, w1⟩ := q
        cases r <;> exact h1
    · cases nd with
      | step s =>
        simp only
        rcases stepRecordStop_cases (P := P) stop s w with h | ⟨b, w', h1, h⟩
        · rw [h]; exact hR.refl w
        · obtain ⟨db, rfl⟩ := stepRecord_world h1
          rw [h]; exact hR.db _ _
      | group g => exact groupRecord_keep hR ih n g w

theorem buildOn_keeps {R : World → World → Prop} (hR : Rel P R) {O : Ops} (hO : OpsKeep R O) (root rounds : Nat) (w : World) :
    R w (buildOn O root rounds w).2 := by
  induction rounds generalizing w with
  | zero => exact hR.refl w
  | succ r ih =>
    unfold buildOn
    have h1 := hO.status root w
    generalize O.status root w = q at h1 ⊢
    obtain ⟨st, w1⟩ := q
    cases st with
    | error e => exact h1
    | ok st =>
      simp only at h1 ⊢
      by_cases hb : st = .building ∨ st = .ready
      · rw [if_pos hb]
        have h2 := hO.build root w1
        generalize O.build root w1 = q at h2 ⊢
        obtain ⟨x, w2⟩ := q
        cases x with
        | error e => exact hR.trans _ _ _ h1 h2
        | ok u => exact hR.trans _ _ _ h1 (hR.trans _ _ _ h2 (ih w2))
      · rw [if_neg hb]
        have h2 := hO.status root w1
        generalize O.status root w1 = q at h2 ⊢
        obtain ⟨x, w2⟩ := q
        cases x <;> exact hR.trans _ _ _ h1 h2

/-- A build that is interrupted changes only files that some step makes. -/
theorem buildStop_sources (a : Adds) (stop : Stop) (depth root rounds : Nat) (w : World) :
    Sources P w (P.buildStop a stop depth root rounds w).2 :=
  buildOn_keeps sources_rel (opsStop_keep sources_rel
    (fun i s w hn p hp => Sources.write (w := w) (w' := w) (fun _ _ => rfl) hn _ p hp) a stop depth) root rounds w

/-! ### Builds that are not interrupted -/

theorem stepStatusStop_never (i : Nat) (s : Step) (w : World) : P.stepStatusStop (fun _ => false) i s w = P.stepStatus i s w := by
  simp [Project.stepStatusStop, Stop.after]

theorem stepBuildStop_never (i : Nat) (s : Step) (w : World) : P.stepBuildStop (fun _ => false) i s w = P.stepBuild i s w := by
  unfold Project.stepBuildStop Project.stepBuild
  rw [stepStatusStop_never]
  generalize P.stepStatus i s w = q
  obtain ⟨r, w1⟩ := q
  cases r with
  | error e => rfl
  | ok st =>
    simp only
    have : (if st = .building ∨ st = .ready then P.runStop (fun _ => false) i s w1 else (.ok (), w1)) =
        (.ok (), if st = .building ∨ st = .ready then P.run i s w1 else w1) := by
      split
      · simp [Project.runStop, Stop.after]
      · rfl
    rw [this]
    simp only [stepStatusStop_never]
    rfl

theorem opsStop_never (a : Adds) (k : Nat) : P.opsStop a (fun _ => false) k = P.opsAdds a k := by
  induction k with
  | zero => rfl
  | succ k ih =>
    simp only [Project.opsStop, Project.opsAdds, ih]
    congr 1
    funext n w
    cases P.node n with
    | none => rfl
    | some nd => cases nd with
      | step s => simp only [Project.stepBuildAddsStop, Project.stepBuildAdds, stepBuildStop_never]
      | group g => rfl

theorem buildOn_adds (a : Adds) (depth root rounds : Nat) (w : World) :
    buildOn (P.opsAdds a depth) root rounds w = P.buildAdds a depth root rounds w := by
  induction rounds generalizing w with
  | zero => rfl
  | succ r ih =>
    unfold buildOn Project.buildAdds
    simp only [ih]
    rfl

theorem cliStop_sources (a : Adds) (stop : Stop) (depth root rounds : Nat) (w : World) :
    Sources P w (P.cliStop a stop depth root rounds w).2 := by
  have hR := sources_rel (P := P)
  have hO := fun k => opsStop_keep hR (fun i s w hn p hp => Sources.write (w := w) (w' := w) (fun _ _ => rfl) hn _ p hp) a stop k
  have hl : ∀ rounds st w, Sources P w (P.cliLoopOn (P.opsStop a stop depth) (P.opsStop a stop (depth + 1)) root rounds st w).2 := by
    intro rounds
    induction rounds with
    | zero => exact fun st w => hR.refl w
    | succ r ih =>
      intro st w
      unfold Project.cliLoopOn
      split
      · split
        · rename_i g _
          have h1 := onSubs_keep hR (build_keep hR (hO depth) root g g.parallel g.clear) root w
          generalize onSubs root (Builder.build (P.subsOf (P.opsStop a stop depth) root g) g.parallel g.clear) w = q at h1 ⊢
          obtain ⟨x, w2⟩ := q
          cases x with
          | error e => exact h1
          | ok st2 => exact hR.trans _ _ _ h1 (ih st2 w2)
        · exact hR.refl w
      · have h1 := (hO (depth + 1)).status root w
        generalize (P.opsStop a stop (depth + 1)).status root w = q at h1 ⊢
        obtain ⟨x, w2⟩ := q
        cases x <;> exact h1
  unfold Project.cliStop
  have h1 := (hO (depth + 1)).status root w
  generalize (P.opsStop a stop (depth + 1)).status root w = q at h1 ⊢
  obtain ⟨x, w2⟩ := q
  cases x with
  | error e => exact h1
  | ok st => exact hR.trans _ _ _ h1 (hl rounds st w2)

theorem cliStop_never (a : Adds) (depth root rounds : Nat) (w : World) :
    P.cliStop a (fun _ => false) depth root rounds w = P.buildCli a depth root rounds w := by
  have hl : ∀ rounds st w, P.cliLoopOn (P.opsAdds a depth) (P.opsAdds a (depth + 1)) root rounds st w = P.cliLoop a depth root rounds st w := by
    intro rounds
    induction rounds with
    | zero => exact fun _ _ => rfl
    | succ r ih =>
      intro st w
      unfold Project.cliLoopOn Project.cliLoop Project.rootBuild
      by_cases h : st = .ready ∨ st = .building
      · rw [if_pos h, if_pos h]
        cases hn : P.node root with
        | none => rfl
        | some nd =>
          cases nd with
          | step s => rfl
          | group g =>
            simp only
            generalize onSubs root (Builder.build (P.subsOf (P.opsAdds a depth) root g) g.parallel g.clear) w = q
            obtain ⟨x, w2⟩ := q
            cases x with
            | error e => rfl
            | ok st2 => exact ih st2 w2
      · rw [if_neg h, if_neg h]
        rfl
  unfold Project.cliStop Project.buildCli
  rw [opsStop_never, opsStop_never]
  generalize (P.opsAdds a (depth + 1)).status root w = q
  obtain ⟨x, w2⟩ := q
  cases x with
  | error e => rfl
  | ok st => exact hl rounds st w2

end Verif.Build
