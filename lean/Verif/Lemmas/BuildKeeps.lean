import Verif.Lemmas.BuildTree

/-! # What holds of any operation of a build, whatever the builders are -/

namespace Verif.Build

open Verif Verif.Decider Verif.Builder

variable {P : Project}

/-- A relation between a world and a later one. -/
structure Rel (P : Project) (R : World → World → Prop) : Prop where
  refl : ∀ w, R w w
  trans : ∀ w1 w2 w3, R w1 w2 → R w2 w3 → R w1 w3
  subs : ∀ w subs, R w { w with subs := subs }
  db : ∀ w db, R w { w with db := db }
  tick : ∀ w, R w (P.tick w)
  found : ∀ w i l, l.future = (w.leaf i).future → ((w.leaf i).parametersFound = true → l.parametersFound = true) →
    R w { w with leaf := put w.leaf i l }
  run : ∀ w i s, P.node i = some (.step s) → R w (P.run i s w)

/-- Operations that keep to a relation. -/
structure OpsKeep (R : World → World → Prop) (O : Ops) : Prop where
  status : ∀ n w, R w (O.status n w).2
  build : ∀ n w, R w (O.build n w).2
  record : ∀ n w, R w (O.record n w).2

def Keep (R : World → World → Prop) {α : Type} (x : M World α) : Prop := ∀ s, R s.w (x s).2.1.w

theorem Keep.pure {R : World → World → Prop} (h : Rel P R) {α : Type} (a : α) : Keep R (Pure.pure a : M World α) := fun _ => h.refl _

theorem Keep.bind {R : World → World → Prop} (h : Rel P R) {α β : Type} {x : M World α} {f : α → M World β} (hx : Keep R x)
    (hf : ∀ a, Keep R (f a)) : Keep R (x >>= f) := by
  intro s
  have h1 := hx s
  cases hq : x s with
  | mk r rest =>
    obtain ⟨s', t⟩ := rest
    rw [hq] at h1
    cases r with
    | error e => rw [bind_error _ _ _ _ _ _ hq]; exact h1
    | ok a => rw [bind_ok _ _ _ _ _ _ hq]; exact h.trans _ _ _ h1 (hf a s')

section
variable {R : World → World → Prop} (hR : Rel P R) {O : Ops} (hO : OpsKeep R O) (n : Nat) (g : Group)
include hR hO

theorem anyRecord_keep (l : List Nat) (w : World) : R w (anyRecord O l w).2 := by
  induction l generalizing w with
  | nil => exact hR.refl w
  | cons m l ih =>
    unfold anyRecord
    have h1 := hO.record m w
    generalize O.record m w = q at h1 ⊢
    obtain ⟨r, w1⟩ := q
    cases r with
    | error e => exact h1
    | ok b => cases b with
      | true => exact h1
      | false => exact hR.trans _ _ _ h1 (ih w1)

theorem groupRecord_keep (w : World) : R w (P.groupRecord O n g w).2 := by
  unfold Project.groupRecord
  split
  · exact anyRecord_keep hR hO _ _
  · split
    · exact hR.refl w
    · exact hR.db _ _

theorem poll_keep (i : Nat) : Keep R (poll (P.subsOf O n g) i) := fun s => hO.status i s.w
theorem buildSub_keep (i : Nat) : Keep R (buildSub (P.subsOf O n g) i) := fun s => hO.build i s.w
theorem record_keep : Keep R (Builder.record (P.subsOf O n g)) := by
  intro s
  have h1 := groupRecord_keep hR hO n g s.w
  show R s.w ((P.subsOf O n g).record s.w).2
  unfold Project.subsOf
  simp only
  generalize P.groupRecord O n g s.w = q at h1 ⊢
  obtain ⟨r, w1⟩ := q
  cases r <;> exact h1

theorem pollAll_keep (l : List Nat) : Keep R (pollAll (P.subsOf O n g) l) := by
  induction l with
  | nil => exact .pure hR _
  | cons m l ih => exact (poll_keep hR hO n g m).bind hR (fun _ => ih.bind hR (fun _ => .pure hR _))

theorem compStatus_keep : Keep R (compStatus (P.subsOf O n g)) :=
  Keep.bind (x := getSubs) hR (fun _ => hR.refl _) (fun _ => (pollAll_keep hR hO n g _).bind hR (fun _ => .pure hR _))

theorem runOnce_keep (par : Bool) (l : List Nat) : Keep R (runOnce (P.subsOf O n g) par l) := by
  induction l with
  | nil => exact .pure hR _
  | cons m l ih =>
    unfold runOnce
    refine (poll_keep hR hO n g m).bind hR (fun st => ?_)
    cases st with
    | done => exact ih
    | building => cases par <;> [exact .pure hR _; exact ih]
    | ready =>
      refine (buildSub_keep hR hO n g m).bind hR (fun _ => ?_)
      cases par <;> [exact .pure hR _; exact ih]
    | missingParameters => exact .pure hR _
    | missingOutfile => exact .pure hR _
    | cancelled => exact .pure hR _

theorem clearDone_keep (l : List Nat) : Keep R (clearDone (P.subsOf O n g) l) := by
  induction l with
  | nil => exact .pure hR _
  | cons m l ih =>
    unfold clearDone
    refine (poll_keep hR hO n g m).bind hR (fun st => ?_)
    by_cases hd : st = .done
    · rw [if_pos hd]
      exact Keep.bind (x := remove m) hR (fun _ => hR.refl _) (fun _ => ih)
    · rw [if_neg hd]; exact ih

theorem finish_keep (clear : Bool) : Keep R (finish (P.subsOf O n g) clear) := by
  have tail : ∀ st : Status, Keep R (do
        if clear then
          let subs ← getSubs
          clearDone (P.subsOf O n g) subs
        pure st : M World Status) := by
    intro st
    cases clear with
    | false => exact .pure hR _
    | true =>
      exact Keep.bind (x := getSubs) hR (fun _ => hR.refl _) (fun _ => (clearDone_keep hR hO n g _).bind hR (fun _ => .pure hR _))
  unfold finish
  refine (compStatus_keep hR hO n g).bind hR (fun st => ?_)
  by_cases hd : st = .done
  · rw [if_pos hd]
    exact (record_keep hR hO n g).bind hR (fun _ => tail st)
  · rw [if_neg hd]; exact tail st

theorem build_keep (par clear : Bool) : Keep R (Builder.build (P.subsOf O n g) par clear) := by
  unfold Builder.build
  refine (compStatus_keep hR hO n g).bind hR (fun st => ?_)
  by_cases hd : st = .building ∨ st = .ready
  · rw [if_pos hd]
    exact Keep.bind (x := getSubs) hR (fun _ => hR.refl _)
      (fun _ => (runOnce_keep hR hO n g par _).bind hR (fun _ => finish_keep hR hO n g clear))
  · rw [if_neg hd]; exact finish_keep hR hO n g clear

end

theorem onSubs_keep {R : World → World → Prop} (hR : Rel P R) {α : Type} {x : M World α} (hx : Keep R x) (n : Nat) (w : World) :
    R w (onSubs n x w).2 := hR.trans _ _ _ (hx ⟨w.subs n, w⟩) (hR.subs _ _)

theorem stepStatus_keep {R : World → World → Prop} (hR : Rel P R) (i : Nat) (s : Step) (w : World) : R w (P.stepStatus i s w).2 := by
  unfold Project.stepStatus
  refine hR.trans _ _ _ (hR.tick w) ?_
  generalize P.tick w = w1
  obtain ⟨sn, hsee, _⟩ := see_eq P.cfg w1.fs w1.db s
  simp only [Leaf.statusIn, hsee, Option.bind_some]
  have hfut : ((w1.leaf i).status sn).2.1.future = (w1.leaf i).future := by
    rcases status_cases (w1.leaf i) sn with ⟨_, _, h⟩ | ⟨l', h1, _, _, h⟩
    · rw [h]
    · rcases h with ⟨_, h⟩ | ⟨_, _, h⟩ | ⟨_, _, h⟩ | ⟨_, _, h⟩ | ⟨_, _, _, h⟩ | ⟨_, _, _, h⟩ | ⟨_, _, h⟩ | ⟨_, _, h⟩ <;> rw [h] <;> exact h1
  have hfnd : (w1.leaf i).parametersFound = true → ((w1.leaf i).status sn).2.1.parametersFound = true := by
    intro hq
    rcases status_cases (w1.leaf i) sn with ⟨h, _, _⟩ | ⟨l', _, h2, _, h⟩
    · rw [hq] at h; cases h
    · rcases h with ⟨_, h⟩ | ⟨_, _, h⟩ | ⟨_, _, h⟩ | ⟨_, _, h⟩ | ⟨_, _, _, h⟩ | ⟨_, _, _, h⟩ | ⟨_, _, h⟩ | ⟨_, _, h⟩ <;> rw [h] <;> exact h2
  by_cases hr : ((w1.leaf i).status sn).2.2 = true
  · rw [if_pos hr]
    cases P.cfg.buildNeeded w1.fs w1.db (s.parameters ++ [Item.other s.action]) (Item.path s.out) true with
    | none => exact hR.refl _
    | some q => exact hR.trans _ _ _ (hR.found w1 i _ hfut hfnd) (hR.db _ _)
  · rw [if_neg hr]
    exact hR.found w1 i _ hfut hfnd

theorem stepBuild_keep {R : World → World → Prop} (hR : Rel P R) (i : Nat) (s : Step) (hn : P.node i = some (.step s)) (w : World) :
    R w (P.stepBuild i s w).2 := by
  unfold Project.stepBuild
  have h1 := stepStatus_keep hR i s w
  generalize P.stepStatus i s w = q at h1 ⊢
  obtain ⟨r, w1⟩ := q
  cases r with
  | error e => exact h1
  | ok st =>
    simp only
    have h2 : R w (if st = .building ∨ st = .ready then P.run i s w1 else w1) := by
      split
      · exact hR.trans _ _ _ h1 (hR.run w1 i s hn)
      · exact h1
    generalize (if st = .building ∨ st = .ready then P.run i s w1 else w1) = w2 at h2 ⊢
    have h3 := stepStatus_keep hR i s w2
    generalize P.stepStatus i s w2 = q at h3 ⊢
    obtain ⟨r, w3⟩ := q
    cases r <;> exact hR.trans _ _ _ h2 h3

theorem ops_keep {R : World → World → Prop} (hR : Rel P R) (k : Nat) : OpsKeep R (P.ops k) := by
  induction k with
  | zero => exact ⟨fun _ w => hR.refl w, fun _ w => hR.refl w, fun _ w => hR.refl w⟩
  | succ k ih =>
    refine ⟨?_, ?_, ?_⟩ <;> intro n w <;> simp only [Project.ops] <;> cases hn : P.node n with
    | none => exact hR.refl w
    | some nd => ?_
    · cases nd with
      | step s => exact stepStatus_keep hR n s w
      | group g => exact onSubs_keep hR (compStatus_keep hR ih n g) n w
    · cases nd with
      | step s => exact stepBuild_keep hR n s hn w
      | group g =>
        have h1 := onSubs_keep hR (build_keep hR ih n g g.parallel g.clear) n w
        simp only
        generalize onSubs n (Builder.build (P.subsOf (P.ops k) n g) g.parallel g.clear) w = q at h1 ⊢
        obtain ⟨r, w1⟩ := q
        cases r <;> exact h1
    · cases nd with
      | step s =>
        simp only [Project.stepRecord]
        cases P.cfg.buildNeeded w.fs w.db s.inputs (.path s.out) true with
        | none => exact hR.refl w
        | some q => exact hR.db _ _
      | group g => exact groupRecord_keep hR ih n g w

theorem build_keeps {R : World → World → Prop} (hR : Rel P R) (k root rounds : Nat) (w : World) : R w (P.build k root rounds w).2 := by
  have hO := ops_keep hR k
  induction rounds generalizing w with
  | zero => exact hR.refl w
  | succ r ih =>
    unfold Project.build
    have h1 := hO.status root w
    generalize (P.ops k).status root w = q at h1 ⊢
    obtain ⟨st, w1⟩ := q
    cases st with
    | error e => exact h1
    | ok st =>
      simp only at h1 ⊢
      by_cases hb : st = .building ∨ st = .ready
      · rw [if_pos hb]
        have h2 := hO.build root w1
        generalize (P.ops k).build root w1 = q at h2 ⊢
        obtain ⟨x, w2⟩ := q
        cases x with
        | error e => exact hR.trans _ _ _ h1 h2
        | ok u => exact hR.trans _ _ _ h1 (hR.trans _ _ _ h2 (ih w2))
      · rw [if_neg hb]
        have h2 := hO.status root w1
        generalize (P.ops k).status root w1 = q at h2 ⊢
        obtain ⟨x, w2⟩ := q
        cases x <;> exact hR.trans _ _ _ h1 h2

/-! ### Sources are not changed -/

/-- Files that no step makes are as they were. -/
def Sources (P : Project) (w w' : World) : Prop := ∀ p, ¬ Made P (fun _ => True) p → w'.fs p = w.fs p

theorem Sources.write {w w' : World} (h : Sources P w w') {i : Nat} {s : Step} (hn : P.node i = some (.step s)) (b : Option Bytes)
    (p : Str) (hp : ¬ Made P (fun _ => True) p) : put w'.fs s.out b p = w.fs p := by
  unfold put
  split
  · rename_i he
    exact absurd ⟨i, s, trivial, hn, he.symm⟩ hp
  · exact h p hp

theorem end_sources (w : World) (e : Nat × Future) : Sources P w (P.end_ w e) := by
  unfold Project.end_
  split
  · split
    · rename_i s hn
      intro p hp
      simp only
      split
      · exact Sources.write (w := w) (w' := w) (fun _ _ => rfl) hn _ p hp
      · rfl
    · exact fun _ _ => rfl
  · exact fun _ _ => rfl

theorem sources_rel : Rel P (Sources P) where
  refl w p _ := rfl
  trans w1 w2 w3 h1 h2 p hp := (h2 p hp).trans (h1 p hp)
  subs w _ p _ := rfl
  db w _ p _ := rfl
  tick w := by
    unfold Project.tick
    have : ∀ (l : List (Nat × Future)) (w : World), Sources P w (l.foldl P.end_ w) := by
      intro l
      induction l with
      | nil => exact fun w p _ => rfl
      | cons e l ih => exact fun w p hp => (ih _ p hp).trans (end_sources w e p hp)
    exact this _ w
  found w i l _ _ p _ := rfl
  run w i s hn := by
    unfold Project.run
    split
    · simp only [Project.stepRecord]
      cases P.cfg.buildNeeded _ w.db s.inputs (.path s.out) true with
      | none => exact fun p hp => Sources.write (w := w) (w' := w) (fun _ _ => rfl) hn _ p hp
      | some q => exact fun p hp => Sources.write (w := w) (w' := w) (fun _ _ => rfl) hn _ p hp
    · split
      · exact fun _ _ => rfl
      · exact fun _ _ => rfl

end Verif.Build
