import Verif.Lemmas.BuildKeeps
import Verif.Spec.BuildEnds

/-! # Lemmas about the end of builds -/

namespace Verif.Build

open Verif Verif.Decider Verif.Builder

variable {P : Project} {U : Scope} {subs0 : Nat → List Nat} {free : Ghost}

/-! ### What is never undone -/

/-- Time passes, commands that were started remain started, those that ended remain ended, and those that run are not to end. -/
structure Adv (P : Project) (w w' : World) : Prop where
  clock : w.clock ≤ w'.clock
  none : ∀ i, (w'.leaf i).future = none → (w.leaf i).future = none
  rest : ∀ i f, (w.leaf i).future = some f → f ≠ .running → (w'.leaf i).future = some f
  still : ∀ i s, P.node i = some (.step s) → (w.leaf i).future = some .running → (w'.leaf i).future = some .running →
    ∀ t, w.clock ≤ t → t < w'.clock → ∀ f, f ≠ .running → (i, f) ∉ P.ends t
  found : ∀ i, (w.leaf i).parametersFound = true → (w'.leaf i).parametersFound = true

theorem Adv.refl (w : World) : Adv P w w where
  clock := Nat.le_refl _
  none _ h := h
  rest _ _ h _ := h
  still i s _ _ _ t h1 h2 := by omega
  found _ h := h

theorem Adv.trans {w1 w2 w3 : World} (h : Adv P w1 w2) (h' : Adv P w2 w3) : Adv P w1 w3 where
  clock := Nat.le_trans h.clock h'.clock
  none i hi := h.none i (h'.none i hi)
  rest i f hi hf := h'.rest i f (h.rest i f hi hf) hf
  still i s hn h1 h3 t ht1 ht3 f hf := by
    have h2 : (w2.leaf i).future = some .running := by
      cases hq : (w2.leaf i).future with
      | none => rw [h.none i hq] at h1; cases h1
      | some f2 =>
        by_cases hr : f2 = .running
        · rw [hr]
        · have := h'.rest i f2 hq hr
          rw [h3] at this
          exact absurd (Option.some.inj this).symm hr
    by_cases ht : t < w2.clock
    · exact h.still i s hn h1 h2 t ht1 ht f hf
    · exact h'.still i s hn h2 h3 t (by omega) ht3 f hf
  found i hi := h'.found i (h.found i hi)

theorem Adv.same {w w' : World} (hc : w'.clock = w.clock) (hf : ∀ i, (w'.leaf i).future = (w.leaf i).future)
    (hp : ∀ i, (w.leaf i).parametersFound = true → (w'.leaf i).parametersFound = true) : Adv P w w' where
  clock := by rw [hc]; exact Nat.le_refl _
  none i h := by rw [← hf]; exact h
  rest i f h _ := by rw [hf]; exact h
  still i s _ _ _ t h1 h2 := by omega
  found := hp

theorem end_found (w : World) (e : Nat × Future) (i : Nat) :
    ((P.end_ w e).leaf i).parametersFound = (w.leaf i).parametersFound := by
  unfold Project.end_
  split
  · split
    · simp only [put]
      split
      · rename_i h; rw [h]
      · rfl
    · rfl
  · rfl

theorem ends_found (l : List (Nat × Future)) (w : World) (i : Nat) :
    ((l.foldl P.end_ w).leaf i).parametersFound = (w.leaf i).parametersFound := by
  induction l generalizing w with
  | nil => rfl
  | cons e l ih => exact (ih _).trans (end_found w e i)

open Classical in
theorem end_future (w : World) (e : Nat × Future) (i : Nat) :
    (P.end_ w e).clock = w.clock ∧
    ((P.end_ w e).leaf i).future =
      if e.1 = i ∧ (w.leaf i).future = some .running ∧ (∃ s, P.node i = some (.step s)) then some e.2 else (w.leaf i).future := by
  obtain ⟨j, f⟩ := e
  unfold Project.end_
  simp only
  by_cases hr : (w.leaf j).future = some .running
  · rw [if_pos hr]
    cases hn : P.node j with
    | none =>
      refine ⟨rfl, ?_⟩
      rw [if_neg]
      rintro ⟨rfl, _, s, hs⟩
      rw [hn] at hs; cases hs
    | some nd =>
      cases nd with
      | group g =>
        refine ⟨rfl, ?_⟩
        rw [if_neg]
        rintro ⟨rfl, _, s, hs⟩
        rw [hn] at hs; cases hs
      | step s =>
        refine ⟨rfl, ?_⟩
        by_cases he : i = j
        · subst he
          rw [if_pos ⟨rfl, hr, s, hn⟩]
          simp [put]
        · rw [if_neg (fun h => he h.1.symm)]
          simp [put, he]
  · rw [if_neg hr]
    refine ⟨rfl, ?_⟩
    rw [if_neg]
    rintro ⟨rfl, h, _⟩
    exact hr h

/-- Several commands end. -/
theorem ends_future (l : List (Nat × Future)) (w : World) (i : Nat) :
    (l.foldl P.end_ w).clock = w.clock ∧
    ((w.leaf i).future ≠ some .running → ((l.foldl P.end_ w).leaf i).future = (w.leaf i).future) ∧
    (((l.foldl P.end_ w).leaf i).future = none → (w.leaf i).future = none) ∧
    (((l.foldl P.end_ w).leaf i).future = some .running → (∃ s, P.node i = some (.step s)) → ∀ f, f ≠ .running → (i, f) ∉ l) := by
  induction l generalizing w with
  | nil => exact ⟨rfl, fun _ => rfl, fun h => h, fun _ _ _ _ h => by cases h⟩
  | cons e l ih =>
    obtain ⟨h1, h2, h3, h4⟩ := ih (P.end_ w e)
    obtain ⟨hc, hf⟩ := end_future (P := P) w e i
    simp only [List.foldl_cons]
    refine ⟨h1.trans hc, ?_, ?_, ?_⟩
    · intro hr
      have : ((P.end_ w e).leaf i).future = (w.leaf i).future := by
        rw [hf, if_neg]
        rintro ⟨_, h, _⟩
        exact hr h
      rw [h2 (by rw [this]; exact hr), this]
    · intro h
      have := h3 h
      rw [hf] at this
      split at this
      · cases this
      · exact this
    · intro hrun hst f hfr hmem
      rcases List.mem_cons.1 hmem with rfl | hmem
      · by_cases hr : (w.leaf i).future = some .running
        · rw [if_pos ⟨rfl, hr, hst⟩] at hf
          have := h2 (by rw [hf]; intro h; exact hfr (Option.some.inj h))
          rw [hrun, hf] at this
          exact hfr (Option.some.inj this).symm
        · rw [if_neg (fun h => hr h.2.1)] at hf
          have := h2 (by rw [hf]; exact hr)
          rw [hrun, hf] at this
          exact hr this.symm
      · exact h4 hrun hst f hfr hmem

theorem adv_rel : Rel P (Adv P) where
  refl := .refl
  trans _ _ _ h h' := h.trans h'
  subs w _ := .same rfl (fun _ => rfl) (fun _ h => h)
  db w _ := .same rfl (fun _ => rfl) (fun _ h => h)
  tick w := by
    have hb := fun i => ends_future (P := P) (P.ends w.clock) w i
    have hb2 := fun i => ends_found (P := P) (P.ends w.clock) w i
    unfold Project.tick
    generalize (P.ends w.clock).foldl P.end_ w = w1 at hb hb2 ⊢
    refine ⟨?_, ?_, ?_, ?_, fun i hi => (hb2 i).trans hi⟩
    · show w.clock ≤ w.clock + 1
      omega
    · intro i h
      exact (hb i).2.2.1 h
    · intro i f h hf
      show (w1.leaf i).future = _
      rw [(hb i).2.1 (by rw [h]; intro h'; exact hf (Option.some.inj h')), h]
    · intro i s hn _ h2 t ht1 ht2 f hf
      have : t = w.clock := by
        have : t < w.clock + 1 := ht2
        omega
      subst this
      exact (hb i).2.2.2 h2 ⟨s, hn⟩ f hf
  found w i l hl hl2 := by
    refine .same rfl (fun j => ?_) (fun j => ?_)
    · show (put w.leaf i l j).future = _
      unfold put
      split
      · rename_i h; rw [h, hl]
      · rfl
    · show _ → (put w.leaf i l j).parametersFound = true
      unfold put
      split
      · rename_i h; rw [h]; exact hl2
      · exact fun h => h
  run w i s hn := by
    unfold Project.run
    split
    · simp only [Project.stepRecord]
      cases P.cfg.buildNeeded _ w.db s.inputs (.path s.out) true with
      | none => exact .same rfl (fun _ => rfl) (fun _ h => h)
      | some q => exact .same rfl (fun _ => rfl) (fun _ h => h)
    · split
      · rename_i hf
        refine ⟨Nat.le_refl _, ?_, ?_, ?_, ?_⟩
        · intro j h
          simp only [put] at h
          split at h
          · rename_i he; rw [he]; exact hf
          · exact h
        · intro j f h hne
          simp only [put]
          split
          · rename_i he; rw [he, hf] at h; cases h
          · exact h
        · intro j s _ _ _ t h1 h2
          exact absurd h1 (by have : t < w.clock := h2; omega)
        · intro j h
          simp only [put]
          split
          · rename_i he
            subst he
            unfold Leaf.runCmd
            rw [hf]
            exact h
          · exact h
      · exact .refl w

/-- No command failed. -/
def Calm (w : World) : Prop := ∀ i, (w.leaf i).future = none ∨ (w.leaf i).future = some .running ∨ (w.leaf i).future = some (.ended 0)

theorem calm_rel (hP : Successful P) : Rel P (fun w w' => Calm w → Calm w') where
  refl _ h := h
  trans _ _ _ h h' hc := h' (h hc)
  subs _ _ h := h
  db _ _ h := h
  tick w h := by
    unfold Project.tick
    have : ∀ (l : List (Nat × Future)) (w : World), (∀ e ∈ l, e.2 = .ended 0) → Calm w → Calm (l.foldl P.end_ w) := by
      intro l
      induction l with
      | nil => exact fun w _ h => h
      | cons e l ih =>
        intro w hl hw
        refine ih _ (fun e he => hl e (by simp [he])) (fun i => ?_)
        rw [(end_future w e i).2]
        split
        · rw [hl e (by simp)]; simp
        · exact hw i
    exact this _ w (hP w.clock) h
  found w i l hl _ h j := by
    have : (put w.leaf i l j).future = (w.leaf j).future := by
      unfold put
      split
      · rename_i he; rw [he, hl]
      · rfl
    show (put w.leaf i l j).future = _ ∨ (put w.leaf i l j).future = _ ∨ (put w.leaf i l j).future = _
    rw [this]; exact h j
  run w i s hn h := by
    unfold Project.run
    split
    · simp only [Project.stepRecord]
      cases P.cfg.buildNeeded _ w.db s.inputs (.path s.out) true with
      | none => exact h
      | some q => exact h
    · split
      · rename_i hf
        intro j
        simp only [put]
        split
        · unfold Leaf.runCmd
          rw [hf]
          simp
        · exact h j
      · exact h

theorem Sources.has {w w' : World} (h : Sources P w w') (hw : HasSources P w) : HasSources P w' := by
  intro i s p hn hp hm
  rw [h p hm]
  exact hw i s p hn hp hm

/-! ### The settled steps -/

/-- The steps that are settled. -/
def Top (P : Project) (U : Scope) (subs0 : Nat → List Nat) (free : Ghost) (w : World) (i : Nat) : Prop :=
  ∃ S, Inv P U subs0 free w S ∧ S i

theorem Inv.top {w : World} {S : Nat → Prop} (h : Inv P U subs0 free w S) : Inv P U subs0 free w (Top P U subs0 free w) := by
  have hle : ∀ i, S i → Top P U subs0 free w i := fun i hi => ⟨S, h, hi⟩
  exact
    { truth := h.truth
      memory := h.memory
      files := h.files
      settled := by
        rintro i ⟨S1, h1, hi⟩
        obtain ⟨s, a, b, c⟩ := h1.settled i hi
        exact ⟨s, a, b, c.mono (fun j hj => ⟨S1, h1, hj⟩)⟩
      started := fun i s hn hf => ⟨(h.started i s hn hf).1.mono hle, (h.started i s hn hf).2⟩
      found := h.found
      running := h.running
      ended := h.ended
      left := fun n => (h.left n).mono hle
      absent := fun i s hn h1 h2 => (h.absent i s hn h1 h2).mono hle
      plain := h.plain
      once := by
        intro i s hn
        rcases h.once i s hn with h' | ⟨h', h'' | h''⟩
        · exact .inl h'
        · exact .inr ⟨h', .inl (hle i h'')⟩
        · exact .inr ⟨h', .inr h''⟩ }

/-- A state of a build. -/
def Live (P : Project) (U : Scope) (subs0 : Nat → List Nat) (free : Ghost) (w : World) : Prop :=
  Inv P U subs0 free w (Top P U subs0 free w)

/-- All goes well: no command failed or is going to fail, and the files that no step makes are there. -/
structure Fine (P : Project) (w : World) : Prop where
  successful : Successful P
  calm : Calm w
  sources : HasSources P w

theorem fine_rel : Rel P (fun w w' => Fine P w → Fine P w') where
  refl _ h := h
  trans _ _ _ h h' hc := h' (h hc)
  subs w x h := ⟨h.successful, (calm_rel h.successful).subs w x h.calm, (sources_rel.subs w x).has h.sources⟩
  db w x h := ⟨h.successful, (calm_rel h.successful).db w x h.calm, (sources_rel.db w x).has h.sources⟩
  tick w h := ⟨h.successful, (calm_rel h.successful).tick w h.calm, (sources_rel.tick w).has h.sources⟩
  found w i l h1 h2 h := ⟨h.successful, (calm_rel h.successful).found w i l h1 h2 h.calm, (sources_rel.found w i l h1 h2).has h.sources⟩
  run w i s hn h := ⟨h.successful, (calm_rel h.successful).run w i s hn h.calm, (sources_rel.run w i s hn).has h.sources⟩

/-- A later state of a build. -/
structure On (P : Project) (U : Scope) (subs0 : Nat → List Nat) (free : Ghost) (w w' : World) : Prop where
  adv : Adv P w w'
  more : ∀ i, Top P U subs0 free w i → Top P U subs0 free w' i
  live : Live P U subs0 free w'
  fine : Fine P w → Fine P w'

theorem On.refl {w : World} (h : Live P U subs0 free w) : On P U subs0 free w w := ⟨.refl w, fun _ h => h, h, fun h => h⟩

theorem On.trans {w1 w2 w3 : World} (h : On P U subs0 free w1 w2) (h' : On P U subs0 free w2 w3) : On P U subs0 free w1 w3 :=
  ⟨h.adv.trans h'.adv, fun i hi => h'.more i (h.more i hi), h'.live, fun hf => h'.fine (h.fine hf)⟩

theorem Live.on {w w' : World} {S' : Nat → Prop} (hn : Next P U subs0 free w (Top P U subs0 free w) w' S')
    (ha : Adv P w w') (hf : Fine P w → Fine P w') : On P U subs0 free w w' ∧ ∀ i, S' i → Top P U subs0 free w' i :=
  ⟨⟨ha, fun i hi => ⟨S', hn.inv, hn.more i hi⟩, hn.inv.top, hf⟩, fun i hi => ⟨S', hn.inv, hi⟩⟩

/-- What remains to be done for the command of a step. -/
def toRun : Option Future → Nat
  | none => 2
  | some .running => 1
  | some _ => 0

open Classical in
/-- What remains to be done for a step. -/
noncomputable def toDo (P : Project) (U : Scope) (subs0 : Nat → List Nat) (free : Ghost) (w : World) (i : Nat) : Nat :=
  toRun (w.leaf i).future + if Top P U subs0 free w i then 0 else 1

theorem Adv.toRun {w w' : World} (h : Adv P w w') (i : Nat) : toRun (w'.leaf i).future ≤ toRun (w.leaf i).future := by
  cases hq : (w.leaf i).future with
  | none =>
    cases (w'.leaf i).future with
    | none => exact Nat.le_refl _
    | some f => cases f <;> simp [Build.toRun]
  | some f =>
    by_cases hr : f = .running
    · subst hr
      cases hq' : (w'.leaf i).future with
      | none => rw [h.none i hq'] at hq; cases hq
      | some f => cases f <;> simp [Build.toRun]
    · rw [h.rest i f hq hr]
      exact Nat.le_refl _

theorem On.toDo {w w' : World} (h : On P U subs0 free w w') (i : Nat) : toDo P U subs0 free w' i ≤ toDo P U subs0 free w i := by
  unfold Build.toDo
  have := h.adv.toRun i
  have h2 := h.more i
  split <;> split <;> first | omega | (rename_i a b; exact absurd (h2 b) a)

/-- Something is running, or less is to be done than before. -/
def Progress (P : Project) (U : Scope) (subs0 : Nat → List Nat) (free : Ghost) (n : Nat) (w w' : World) : Prop :=
  ∃ i, Part P subs0 n i ∧ ((w'.leaf i).future = some .running ∨ toDo P U subs0 free w' i < toDo P U subs0 free w i)

theorem Progress.on {n : Nat} {w w1 w2 : World} (h : Progress P U subs0 free n w w1) (h0 : On P U subs0 free w w1)
    (h' : On P U subs0 free w1 w2) : Progress P U subs0 free n w w2 := by
  obtain ⟨i, hi, h⟩ := h
  refine ⟨i, hi, ?_⟩
  rcases h with h | h
  · by_cases hr : (w2.leaf i).future = some .running
    · exact .inl hr
    · refine .inr ?_
      have h1 := h0.toDo i
      have h2 := h'.more i
      have h3 : toRun (w1.leaf i).future = 1 := by rw [h]; rfl
      have h4 : toRun (w2.leaf i).future = 0 := by
        cases hq : (w2.leaf i).future with
        | none => rw [h'.adv.none i hq] at h; cases h
        | some f =>
          cases f with
          | running => exact absurd hq hr
          | cancelled => rfl
          | raised => rfl
          | ended _ => rfl
      unfold Build.toDo at h1 ⊢
      rw [h3] at h1
      rw [h4]
      split at h1 <;> split <;> first | omega | (rename_i a _ b; exact absurd (h2 a) b) | (rename_i a b; exact absurd (h2 a) b)
  · exact .inr (Nat.lt_of_le_of_lt (h'.toDo i) h)

theorem Progress.after {n : Nat} {w w1 w2 : World} (h0 : On P U subs0 free w w1) (h : Progress P U subs0 free n w1 w2) :
    Progress P U subs0 free n w w2 := by
  obtain ⟨i, hi, h⟩ := h
  refine ⟨i, hi, h.imp id (fun h => Nat.lt_of_lt_of_le h (h0.toDo i))⟩

theorem Progress.settled {n i : Nat} {w w' : World} (ho : On P U subs0 free w w') (hi : Part P subs0 n i) (h : ¬ Top P U subs0 free w i)
    (h' : Top P U subs0 free w' i) : Progress P U subs0 free n w w' := by
  refine ⟨i, hi, .inr ?_⟩
  have := ho.adv.toRun i
  unfold Build.toDo
  rw [if_pos h', if_neg h]
  omega

theorem Progress.group {n m : Nat} {g : Group} (hn : P.node n = some (.group g)) (hm : m ∈ subs0 n) {w w' : World}
    (h : Progress P U subs0 free m w w') : Progress P U subs0 free n w w' := by
  obtain ⟨i, hi, h⟩ := h
  exact ⟨i, .group n m i g hn hm hi, h⟩

/-! ### Steps -/

/-- The step can be run: no command was started, its parameters are there, and it is not settled. -/
structure Idle (P : Project) (U : Scope) (subs0 : Nat → List Nat) (free : Ghost) (w : World) (i : Nat) : Prop where
  future : (w.leaf i).future = none
  found : (w.leaf i).parametersFound = true
  unsettled : ¬ Top P U subs0 free w i

theorem toDo_none {w w' : World} (ho : On P U subs0 free w w') {i : Nat} (h : (w.leaf i).future = none) (h' : (w'.leaf i).future ≠ none) :
    toDo P U subs0 free w' i < toDo P U subs0 free w i := by
  have h1 := ho.more i
  unfold Build.toDo
  rw [h]
  have h2 : toRun (w'.leaf i).future ≤ 1 := by
    cases hq : (w'.leaf i).future with
    | none => exact absurd hq h'
    | some f => cases f <;> simp [Build.toRun]
  have h3 : toRun none = 2 := rfl
  rw [h3]
  split <;> split <;> first | omega | (rename_i a b; exact absurd (h1 b) a)

/-- A step that can be run can still be run, or something was done for it. -/
theorem Idle.on {w w' : World} {i : Nat} (h : Idle P U subs0 free w i) (ho : On P U subs0 free w w') :
    Idle P U subs0 free w' i ∨ toDo P U subs0 free w' i < toDo P U subs0 free w i := by
  by_cases hf : (w'.leaf i).future = none
  · by_cases hT : Top P U subs0 free w' i
    · refine .inr ?_
      have := ho.adv.toRun i
      unfold Build.toDo
      rw [if_pos hT, if_neg h.unsettled]
      omega
    · exact .inl ⟨hf, ho.adv.found i h.found, hT⟩
  · exact .inr (toDo_none ho h.future hf)

theorem Inv.allIn {w : World} {S : Nat → Prop} (hI : Inv P U subs0 free w S) (hs : HasSources P w) {i : Nat}
    {s : Step} (hn : P.node i = some (.step s)) (hc : Covered P S s) : AllIn w.fs s := by
  intro p hp
  by_cases hm : Made P (fun _ => True) p
  · obtain ⟨j, t, hj, hjn, rfl⟩ := hc p hp hm
    obtain ⟨t', h1, ⟨k, o, hd, _⟩, _⟩ := hI.settled j hj
    rw [hjn] at h1
    injection h1 with h1; injection h1 with h1; subst h1
    exact (digests_there hd).2
  · exact hs i s p hn hp hm

theorem Live.stepOn (hs : Sound P U) {w : World} (h : Live P U subs0 free w) {i : Nat} {s : Step} (hn : P.node i = some (.step s)) :
    On P U subs0 free w (P.stepStatus i s w).2 ∧
    ((P.stepStatus i s w).1 = .ok .done → Covered P (Top P U subs0 free w) s ∨ free i → Top P U subs0 free (P.stepStatus i s w).2 i) := by
  obtain ⟨S', h1, h2, _⟩ := Inv.stepStatus hs h hn
  obtain ⟨h3, h4⟩ := Live.on h1 (stepStatus_keep adv_rel i s w) (stepStatus_keep fine_rel i s w)
  exact ⟨h3, fun hd hc => h4 i (h2 hd hc)⟩

/-- The builders fit together, and each step has a parameter. -/
structure Fit (P : Project) (U : Scope) : Prop where
  sound : Sound P U
  inputs : ∀ i s, P.node i = some (.step s) → s.parameters ≠ []

/-- Neither finished nor going on. -/
def Stuck (st : Status) : Prop := st ≠ .done ∧ st ≠ .building ∧ st ≠ .ready

theorem Live.stepStatus (hF : Fit P U) {w : World} (h : Live P U subs0 free w) {i : Nat} {s : Step} (hn : P.node i = some (.step s)) :
    (∀ e, (P.stepStatus i s w).1 = .error e → ¬ Fine P w) ∧
    ∀ st, (P.stepStatus i s w).1 = .ok st → w.clock < (P.stepStatus i s w).2.clock ∧ (Top P U subs0 free w i → st = .done) ∧
      (Covered P (Top P U subs0 free w) s → st = .done ∨
        (st = .building ∧ ((P.stepStatus i s w).2.leaf i).future = some .running) ∨
        (st = .ready ∧ Idle P U subs0 free (P.stepStatus i s w).2 i) ∨ (Stuck st ∧ ¬ Fine P w)) ∧
      (Idle P U subs0 free w i → st = .done ∨ st = .ready) := by
  have ht := Inv.tick hF.sound h
  have hI1 := ht.inv
  have hfine := fine_rel.tick (P := P) w
  have hadv := adv_rel.tick (P := P) w
  have hfut : (w.leaf i).future = none → ((P.tick w).leaf i).future = none := by
    intro hq
    unfold Project.tick
    exact ((ends_future (P := P) (P.ends w.clock) w i).2.1 (by rw [hq]; simp)).trans hq
  have hclock : (P.tick w).clock = w.clock + 1 := by unfold Project.tick; rfl
  unfold Project.stepStatus
  generalize P.tick w = w1 at ht hI1 hfine hadv hfut hclock ⊢
  obtain ⟨sn, hsee, hmis, hfound, hneed, hout⟩ := see_eq P.cfg w1.fs w1.db s
  simp only [Leaf.statusIn, hsee, Option.bind_some]
  have hput : ∀ l : Leaf, put w1.leaf i l i = l := fun l => by simp [put]
  have hset : Top P U subs0 free w i → Done P.cfg w1.fs w1.db s := by
    intro hS
    obtain ⟨t, h1, h2, h3⟩ := hI1.settled i hS
    rw [hn] at h1
    injection h1 with h1; injection h1 with h1; subst h1
    exact h2
  have hneeded : sn.needed = true → ¬ Top P U subs0 free w i := by
    intro h hS
    rw [hneed.2 (hset hS)] at h
    cases h
  rcases status_cases (w1.leaf i) sn with ⟨h1, h2, h3⟩ | ⟨l', hl1, hl2, hl3, hc⟩
  · rw [h3]
    simp only [Bool.false_eq_true, if_false]
    refine ⟨fun e he => (by cases he), fun st hst => ?_⟩
    injection hst with hst; subst hst
    refine ⟨?_, ?_, ?_, ?_⟩
    · show w.clock < w1.clock
      omega
    · intro hS
      obtain ⟨k, o, hd, _⟩ := hset hS
      have := hfound (digests_there hd).1 (hF.inputs i s hn)
      rw [h2] at this; cases this
    · intro hcov
      refine .inr (.inr (.inr ⟨⟨by simp, by simp, by simp⟩, fun hf => ?_⟩))
      have := hfound (hI1.allIn (hfine hf).sources hn hcov) (hF.inputs i s hn)
      rw [h2] at this; cases this
    · intro hid
      have := hadv.found i hid.found
      rw [h1] at this; cases this
  · have hall : AllIn w1.fs s := by
      rcases hl3 with h | h
      · exact hI1.found i s hn h
      · exact (hmis h).1
    have hnone : ∀ {f}, (w1.leaf i).future = some f → ¬ Idle P U subs0 free w i := by
      intro f hf hid
      rw [hfut hid.future] at hf; cases hf
    rcases hc with ⟨h1, h2⟩ | ⟨h1, hf, h2⟩ | ⟨h1, hf, h2⟩ | ⟨h1, hf, h2⟩ | ⟨h1, hf, ho, h2⟩ | ⟨h1, hf, ho, h2⟩ | ⟨h1, ⟨rc, hrc, hf⟩, h2⟩ | ⟨h1, hf, h2⟩
    · rw [h2]
      simp only [Bool.false_eq_true, if_false]
      refine ⟨fun e he => (by cases he), fun st hst => ?_⟩
      injection hst with hst; subst hst
      exact ⟨by show w.clock < w1.clock; omega, fun _ => rfl, fun _ => .inl rfl, fun _ => .inl rfl⟩
    · rw [h2]
      simp only [Bool.false_eq_true, if_false]
      refine ⟨fun e he => (by cases he), fun st hst => ?_⟩
      injection hst with hst; subst hst
      refine ⟨by show w.clock < w1.clock; omega, fun hS => absurd hS (hneeded h1), fun _ => .inr (.inl ⟨rfl, ?_⟩),
        fun hid => absurd hid (hnone hf)⟩
      rw [hput, hl1]; exact hf
    · rw [h2]
      simp only [Bool.false_eq_true, if_false]
      refine ⟨fun e he => (by cases he), fun st hst => ?_⟩
      injection hst with hst; subst hst
      refine ⟨by show w.clock < w1.clock; omega, fun hS => absurd hS (hneeded h1),
        fun _ => .inr (.inr (.inr ⟨⟨by simp, by simp, by simp⟩, fun hq => ?_⟩)), fun hid => absurd hid (hnone hf)⟩
      rcases (hfine hq).calm i with h | h | h <;> rw [hf] at h <;> cases h
    · rw [h2]
      simp only [Bool.false_eq_true, if_false]
      refine ⟨fun e he hq => ?_, fun st hst => by cases hst⟩
      rcases (hfine hq).calm i with h | h | h <;> rw [hf] at h <;> cases h
    · rw [h2]
      simp only [if_true]
      obtain ⟨k, o, hdd⟩ := digests_of_there P.cfg hall (hout.1 ho)
      rw [show s.parameters ++ [Item.other s.action] = s.inputs from rfl, record_eq _ _ _ _ hdd]
      simp only [Option.map_some]
      refine ⟨fun e he => (by cases he), fun st hst => ?_⟩
      injection hst with hst; subst hst
      exact ⟨by omega, fun _ => rfl, fun _ => .inl rfl, fun _ => .inl rfl⟩
    · have := (current_iff _ _).1 (hI1.ended i s hn hf)
      have : sn.outExists = true := hout.2 (by rw [this.2]; simp)
      rw [ho] at this; cases this
    · rw [h2]
      simp only [Bool.false_eq_true, if_false]
      refine ⟨fun e he hq => ?_, fun st hst => by cases hst⟩
      rcases (hfine hq).calm i with h | h | h <;> rw [hf] at h
      · cases h
      · cases h
      · injection h with h; injection h with h; exact absurd h hrc
    · rw [h2]
      simp only [Bool.false_eq_true, if_false]
      refine ⟨fun e he => (by cases he), fun st hst => ?_⟩
      injection hst with hst; subst hst
      refine ⟨by show w.clock < w1.clock; omega, fun hS => absurd hS (hneeded h1), fun _ => .inr (.inr (.inl ⟨rfl, ?_, ?_, ?_⟩)), fun _ => .inr rfl⟩
      · show (put w1.leaf i l' i).future = none
        rw [hput, hl1]; exact hf
      · show (put w1.leaf i l' i).parametersFound = true
        rw [hput]; exact hl2
      · rintro ⟨S, hI, hi⟩
        obtain ⟨t, h5, h6, _⟩ := hI.settled i hi
        rw [hn] at h5
        injection h5 with h5; injection h5 with h5; subst h5
        rw [hneed.2 h6] at h1
        cases h1

theorem Live.stepBuild (hF : Fit P U) {w : World} (h : Live P U subs0 free w) {i : Nat} {s : Step} (hn : P.node i = some (.step s))
    (hc : Covered P (Top P U subs0 free w) s) :
    On P U subs0 free w (P.stepBuild i s w).2 ∧ (∀ e, (P.stepBuild i s w).1 = .error e → ¬ Fine P w) ∧
      (Idle P U subs0 free w i → (P.stepBuild i s w).1 = .ok () → Progress P U subs0 free i w (P.stepBuild i s w).2) := by
  have hpart : Part P subs0 i i := .step i s hn
  obtain ⟨hon1, hd1⟩ := h.stepOn hF.sound hn
  obtain ⟨he1, h4⟩ := h.stepStatus hF hn
  obtain ⟨S', hx1, _, hx3⟩ := Inv.stepStatus hF.sound h hn
  unfold Project.stepBuild
  generalize P.stepStatus i s w = q at hon1 hd1 he1 h4 hx1 hx3 ⊢
  obtain ⟨r, w1⟩ := q
  cases r with
  | error e => exact ⟨hon1, fun e' _ => he1 e rfl, fun _ hok => by cases hok⟩
  | ok st =>
    obtain ⟨_, _, h5, h6⟩ := h4 st rfl
    simp only at hon1 hd1 h5 hx1 hx3 ⊢
    have hc1 := hc.mono hon1.more
    -- after the run
    have key : ∃ w2, (if st = .building ∨ st = .ready then P.run i s w1 else w1) = w2 ∧ On P U subs0 free w w2 ∧
        (Idle P U subs0 free w i → Progress P U subs0 free i w w2) := by
      have hout : Idle P U subs0 free w i → ∀ w2, On P U subs0 free w w2 → Top P U subs0 free w2 i → Progress P U subs0 free i w w2 :=
        fun hid w2 ho hT => Progress.settled ho hpart hid.unsettled hT
      rcases h5 hc with rfl | ⟨rfl, hrun⟩ | ⟨rfl, hid1⟩ | ⟨⟨_, hb, hr⟩, _⟩
      · exact ⟨w1, rfl, hon1, fun hid => hout hid w1 hon1 (hd1 rfl (.inl hc))⟩
      · refine ⟨w1, ?_, hon1, fun _ => ⟨i, hpart, .inl hrun⟩⟩
        rw [if_pos (.inl rfl)]
        unfold Project.run
        rw [if_neg, hrun]
        intro hin
        have := hon1.live.plain i s hn hin
        rw [hrun] at this; cases this
      · obtain ⟨ha, _, hp, _⟩ := hx3 (.inl rfl)
        rw [if_pos (.inr rfl)]
        obtain ⟨S2, h2, h3⟩ := Inv.run hF.sound hon1.live hn hc1 ha hid1.unsettled hp
        obtain ⟨h5, h6⟩ := Live.on h2 (adv_rel.run w1 i s hn) (fine_rel.run w1 i s hn)
        refine ⟨_, rfl, hon1.trans h5, fun hid => ?_⟩
        by_cases hin : s.instant = true
        · exact hout hid _ (hon1.trans h5) (h6 i (h3 hin))
        · refine ⟨i, hpart, .inl ?_⟩
          unfold Project.run
          rw [if_neg hin, hid1.future]
          simp only [put, if_true, Leaf.runCmd, hid1.future]
      · refine ⟨w1, if_neg (by rintro (h | h); exact hb h; exact hr h), hon1, fun hid => ?_⟩
        rcases h6 hid with h | h
        · subst h; exact hout hid w1 hon1 (hd1 rfl (.inl hc))
        · exact absurd h hr
    obtain ⟨w2, he, hon2, hp2⟩ := key
    rw [he]
    obtain ⟨hon3, _⟩ := hon2.live.stepOn hF.sound hn
    obtain ⟨he3, _⟩ := hon2.live.stepStatus hF hn
    generalize P.stepStatus i s w2 = q at hon3 he3 ⊢
    obtain ⟨r, w3⟩ := q
    have hon := hon2.trans hon3
    cases r with
    | error e => exact ⟨hon, fun e' _ hf => he3 e rfl (hon2.fine hf), fun _ hok => by cases hok⟩
    | ok st3 => exact ⟨hon, fun e' h => (by cases h), fun hid _ => (hp2 hid).on hon2 hon3⟩

end Verif.Build
