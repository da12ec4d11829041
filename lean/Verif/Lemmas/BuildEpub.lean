import Verif.Spec.BuildEpub
import Verif.Lemmas.BuildKeeps

/-! # Lemmas about the build of an epub -/

namespace Verif.Build

open Verif Verif.Decider Verif.Builder

variable {P : Project} {b : Packs} {F : FS → Prop} {e opf : Nat} {page archive : Step} {x : Option Bytes}

/-- The package file need not be rendered, and the archive is as it was. -/
structure Still (P : Project) (F : FS → Prop) (e opf : Nat) (page archive : Step) (x : Option Bytes) (w : World) : Prop where
  files : F w.fs
  done : Done P.cfg w.fs w.db page
  kept : w.fs archive.out = x
  subs : w.subs e = [opf] ∨ w.subs e = []
  idle : (w.leaf opf).future = none
  running : ∀ i s, P.node i = some (.step s) → (w.leaf i).future = some .running → ∃ fs, F fs ∧ w.pending i = s.result fs

theorem reset_cases {c : Cfg} {fs : FS} {db db' : Dict Bytes Bytes} {inputs : List Item} {output : Item} {r : Bool}
    (h : c.buildNeeded fs db inputs output true = some (r, db')) :
    db' = db ∨ ∃ k o, c.hashItems fs inputs = some k ∧ c.hashItems fs [output] = some o ∧ db' = db.set k o := by
  unfold Cfg.buildNeeded at h
  split at h
  · cases h
  · injection h with h; injection h with _ h; exact .inl h.symm
  · split at h
    · cases h
    · rename_i k o hk
      rw [if_pos rfl] at h
      injection h with h; injection h with _ h
      have := (calculateHash_iff _ _ _ _ _ _).1 hk
      exact .inr ⟨k, o, this.1, this.2, h.symm⟩

section
variable (hp : Packing P b F e opf page archive)
include hp

/-- Another step writes its file. -/
theorem Still.write {w : World} (h : Still P F e opf page archive x w) {i : Nat} {s : Step} (hn : P.node i = some (.step s))
    (hi : i ≠ opf) {fs' : FS} (hf : F fs') : Still P F e opf page archive x { w with fs := put w.fs s.out (some (s.result fs')) } where
  files := by
    have := hp.closed i s w.fs fs' hn h.files hf
    have hc : s.result fs' = s.tool (s.parameters.map fun | .path q => (fs' q).getD [] | .other b => b) := by
      unfold Step.result
      congr 1
    simp only [put, hc]
    exact this
  done := by
    obtain ⟨h1, h2⟩ := hp.others i s hn hi
    refine done_congr (fs := w.fs) ?_ ?_ h.done
    · intro p hp'
      have : p ≠ s.out := fun hh => h2 (hh ▸ hp')
      simp [put, this]
    · simp [put, Ne.symm h1]
  kept := by
    have := hp.archived i s hn
    simp only [put]
    rw [if_neg (fun hh => this hh.symm)]
    exact h.kept
  subs := h.subs
  idle := h.idle
  running := h.running

/-- A decision is recorded. -/
theorem Still.note {w : World} (h : Still P F e opf page archive x w) {inputs : List Item} {output : Item} {r : Bool}
    {db' : Dict Bytes Bytes} (hr : P.cfg.buildNeeded w.fs w.db inputs output true = some (r, db'))
    (ha : (inputs = page.inputs ∧ output = .path page.out) ∨ ∀ k, P.cfg.hashItems w.fs page.inputs = some k →
      P.cfg.hashItems w.fs inputs ≠ some k) : Still P F e opf page archive x { w with db := db' } := by
  refine { h with done := ?_ }
  rcases reset_cases hr with rfl | ⟨k, o, hk, ho, rfl⟩
  · exact h.done
  · obtain ⟨k', o', hd, hg⟩ := h.done
    rcases ha with ⟨rfl, rfl⟩ | ha
    · exact ⟨k, o, ⟨hk, ho⟩, by simp only; rw [Dict.get?_set, if_pos rfl]⟩
    · refine ⟨k', o', hd, ?_⟩
      simp only
      rw [Dict.get?_set, if_neg]
      · exact hg
      · rintro rfl
        exact ha _ hd.1 hk

theorem Still.noteStep {w : World} (h : Still P F e opf page archive x w) {i : Nat} {s : Step} (hn : P.node i = some (.step s))
    {r : Bool} {db' : Dict Bytes Bytes} (hr : P.cfg.buildNeeded w.fs w.db s.inputs (.path s.out) true = some (r, db')) :
    Still P F e opf page archive x { w with db := db' } := by
  refine h.note hp hr ?_
  by_cases hi : i = opf
  · subst hi
    have := hp.render.1
    rw [hn] at this
    injection this with this; injection this with this; subst this
    exact .inl ⟨rfl, rfl⟩
  · exact .inr (fun k hk => (hp.apart w.fs w.fs k h.files h.files hk).1 i s hn hi)

theorem Still.end_ {w : World} (h : Still P F e opf page archive x w) (ev : Nat × Future) :
    Still P F e opf page archive x (P.end_ w ev) := by
  unfold Project.end_
  by_cases hr : (w.leaf ev.1).future = some .running
  · rw [if_pos hr]
    cases hn : P.node ev.1 with
    | none => exact h
    | some nd =>
      cases nd with
      | group g => exact h
      | step s =>
        simp only
        have hi : ev.1 ≠ opf := fun hh => by rw [hh, h.idle] at hr; cases hr
        obtain ⟨fs', hf, hpe⟩ := h.running _ _ hn hr
        have h1 : Still P F e opf page archive x { w with fs := if ev.2 = .ended 0 then put w.fs s.out (some (w.pending ev.1)) else w.fs } := by
          split
          · rw [hpe]; exact h.write hp hn hi hf
          · exact h
        refine { h1 with idle := ?_, running := ?_ }
        · simp only [put]
          rw [if_neg (Ne.symm hi)]
          exact h.idle
        · intro j t hj hrun
          simp only [put] at hrun ⊢
          by_cases hje : j = ev.1
          · subst hje
            rw [hn] at hj; injection hj with hj; injection hj with hj; subst hj
            exact ⟨fs', hf, hpe⟩
          · rw [if_neg hje] at hrun
            exact h.running j t hj hrun
  · rw [if_neg hr]; exact h

theorem Still.tick {w : World} (h : Still P F e opf page archive x w) : Still P F e opf page archive x (P.tick w) := by
  unfold Project.tick
  have : ∀ (l : List (Nat × Future)) (w : World), Still P F e opf page archive x w → Still P F e opf page archive x (l.foldl P.end_ w) := by
    intro l
    induction l with
    | nil => exact fun w h => h
    | cons ev l ih => exact fun w h => ih _ (h.end_ hp ev)
  have := this (P.ends w.clock) w h
  exact { this with }

theorem Still.stepStatus {w : World} (h : Still P F e opf page archive x w) {i : Nat} {s : Step} (hn : P.node i = some (.step s)) :
    Still P F e opf page archive x (P.stepStatus i s w).2 ∧ (i = opf → (P.stepStatus i s w).1 = .ok .done) := by
  unfold Project.stepStatus
  have h1 := h.tick hp
  generalize P.tick w = w1 at h1 ⊢
  obtain ⟨sn, hsee, _, hmis, hneed, _⟩ := see_eq P.cfg w1.fs w1.db s
  simp only [Leaf.statusIn, hsee, Option.bind_some]
  have hfut : ((w1.leaf i).status sn).2.1.future = (w1.leaf i).future := by
    rcases status_cases (w1.leaf i) sn with ⟨_, _, h⟩ | ⟨l', h1, _, _, h⟩
    · rw [h]
    · rcases h with ⟨_, h⟩ | ⟨_, _, h⟩ | ⟨_, _, h⟩ | ⟨_, _, h⟩ | ⟨_, _, _, h⟩ | ⟨_, _, _, h⟩ | ⟨_, _, h⟩ | ⟨_, _, h⟩ <;> rw [h] <;> exact h1
  have hleaf : Still P F e opf page archive x { w1 with leaf := put w1.leaf i ((w1.leaf i).status sn).2.1 } := by
    refine { h1 with idle := ?_, running := ?_ }
    · simp only [put]
      split
      · rename_i hh; rw [hfut, ← hh]; exact h1.idle
      · exact h1.idle
    · intro j t hj hrun
      simp only [put] at hrun ⊢
      split at hrun
      · rename_i hh; rw [hfut, ← hh] at hrun; exact h1.running j t hj hrun
      · exact h1.running j t hj hrun
  have hopf : i = opf → ((w1.leaf i).status sn).1 = .ok .done ∧ ((w1.leaf i).status sn).2.2 = false := by
    rintro rfl
    have := hp.render.1
    rw [hn] at this
    injection this with this; injection this with this; subst this
    have hN := hneed.2 h1.done
    obtain ⟨k, o, hd, _⟩ := h1.done
    have hM := hmis (digests_there hd).1 hp.render.2.2
    rcases status_cases (w1.leaf i) sn with ⟨_, h, _⟩ | ⟨l', _, _, _, h⟩
    · rw [hM] at h; cases h
    · rcases h with ⟨_, h⟩ | ⟨h, _, _⟩ | ⟨h, _, _⟩ | ⟨h, _, _⟩ | ⟨h, _, _, _⟩ | ⟨h, _, _, _⟩ | ⟨h, _, _⟩ | ⟨h, _, _⟩
      · rw [h]; exact ⟨rfl, rfl⟩
      all_goals (rw [hN] at h; cases h)
  by_cases hr : ((w1.leaf i).status sn).2.2 = true
  · rw [if_pos hr]
    cases hb : P.cfg.buildNeeded w1.fs w1.db (s.parameters ++ [Item.other s.action]) (Item.path s.out) true with
    | none => exact ⟨h1, fun hh => by rw [(hopf hh).2] at hr; cases hr⟩
    | some q => exact ⟨hleaf.noteStep hp hn (r := q.1) (db' := q.2) hb, fun hh => (hopf hh).1⟩
  · rw [if_neg hr]
    exact ⟨hleaf, fun hh => (hopf hh).1⟩

theorem Still.stepRecord {w : World} (h : Still P F e opf page archive x w) {i : Nat} {s : Step} (hn : P.node i = some (.step s))
    {r : Bool} {w' : World} (hr : P.stepRecord s w = some (r, w')) : Still P F e opf page archive x w' := by
  unfold Project.stepRecord at hr
  cases hb : P.cfg.buildNeeded w.fs w.db s.inputs (.path s.out) true with
  | none => rw [hb] at hr; cases hr
  | some q =>
    rw [hb] at hr
    injection hr with hr; injection hr with _ hr
    rw [← hr]
    exact h.noteStep hp hn (r := q.1) hb

theorem Still.run {w : World} (h : Still P F e opf page archive x w) {i : Nat} {s : Step} (hn : P.node i = some (.step s)) (hi : i ≠ opf) :
    Still P F e opf page archive x (P.run i s w) := by
  unfold Project.run
  split
  · have h1 := h.write hp hn hi h.files
    have h2 : Still P F e opf page archive x { w with fs := put w.fs s.out (some (s.result w.fs)), runs := put w.runs i (w.runs i + 1) } :=
      { h1 with }
    simp only
    generalize ({ w with fs := put w.fs s.out (some (s.result w.fs)), runs := put w.runs i (w.runs i + 1) } : World) = w2 at h2 ⊢
    cases hr : P.stepRecord s w2 with
    | none => exact h2
    | some q => exact h2.stepRecord hp hn (r := q.1) (w' := q.2) hr
  · split
    · refine { h with idle := ?_, running := ?_ }
      · simp only [put]
        rw [if_neg (Ne.symm hi)]
        exact h.idle
      · intro j t hj hrun
        simp only [put] at hrun ⊢
        by_cases hji : j = i
        · subst hji
          rw [hn] at hj; injection hj with hj; injection hj with hj; subst hj
          rw [if_pos rfl]
          exact ⟨w.fs, h.files, rfl⟩
        · rw [if_neg hji] at hrun ⊢
          exact h.running j t hj hrun
    · exact h

theorem Still.stepBuild {w : World} (h : Still P F e opf page archive x w) {i : Nat} {s : Step} (hn : P.node i = some (.step s)) :
    Still P F e opf page archive x (P.stepBuild i s w).2 := by
  unfold Project.stepBuild
  obtain ⟨h1, h1'⟩ := h.stepStatus hp hn
  generalize P.stepStatus i s w = q at h1 h1' ⊢
  obtain ⟨r, w1⟩ := q
  cases r with
  | error er => exact h1
  | ok st =>
    simp only
    have h2 : Still P F e opf page archive x (if st = .building ∨ st = .ready then P.run i s w1 else w1) := by
      split
      · rename_i hst
        refine Still.run hp h1 hn (fun hi => ?_)
        have := h1' hi
        simp only [Except.ok.injEq] at this
        subst this
        rcases hst with hst | hst <;> cases hst
      · exact h1
    generalize (if st = .building ∨ st = .ready then P.run i s w1 else w1) = w2 at h2 ⊢
    have h3 := (h2.stepStatus hp hn).1
    generalize P.stepStatus i s w2 = q at h3 ⊢
    obtain ⟨r, w3⟩ := q
    cases r <;> exact h3

end

/-! ### Composite builders -/

/-- What is known of the operations on the builders: the builder of the epub is never ready. -/
structure Stills (P : Project) (F : FS → Prop) (e opf : Nat) (page archive : Step) (x : Option Bytes) (O : Ops) : Prop where
  status : ∀ n w, Still P F e opf page archive x w → Still P F e opf page archive x (O.status n w).2
  build : ∀ n w, n ≠ e → Still P F e opf page archive x w → Still P F e opf page archive x (O.build n w).2
  record : ∀ n w, Still P F e opf page archive x w → Still P F e opf page archive x (O.record n w).2
  package : ∀ w st, Still P F e opf page archive x w → (O.status opf w).1 = .ok st → st = .done
  never : ∀ w st, Still P F e opf page archive x w → (O.status e w).1 = .ok st → st = .done

def Holds (I : World → Prop) {α : Type} (y : M World α) : Prop := ∀ s, I s.w → I (y s).2.1.w

theorem Holds.pure {I : World → Prop} {α : Type} (a : α) : Holds I (Pure.pure a : M World α) := fun _ h => h

theorem Holds.bind {I : World → Prop} {α β : Type} {y : M World α} {f : α → M World β} (hy : Holds I y) (hf : ∀ a, Holds I (f a)) :
    Holds I (y >>= f) := by
  intro s hs
  have h1 := hy s hs
  cases hq : y s with
  | mk r rest =>
    obtain ⟨s', t⟩ := rest
    rw [hq] at h1
    cases r with
    | error e => rw [bind_error _ _ _ _ _ _ hq]; exact h1
    | ok a => rw [bind_ok _ _ _ _ _ _ hq]; exact hf a s' h1

section
variable {O : Ops} (hO : Stills P F e opf page archive x O) (n : Nat) (g : Group)
include hO

theorem poll_still (i : Nat) : Holds (Still P F e opf page archive x) (poll (P.subsOf O n g) i) := fun s h => hO.status i s.w h

theorem pollAll_still (l : List Nat) : Holds (Still P F e opf page archive x) (pollAll (P.subsOf O n g) l) := by
  induction l with
  | nil => exact .pure _
  | cons m l ih => exact (poll_still hO n g m).bind (fun _ => ih.bind (fun _ => .pure _))

theorem compStatus_still : Holds (Still P F e opf page archive x) (compStatus (P.subsOf O n g)) :=
  Holds.bind (y := getSubs) (fun _ h => h) (fun _ => (pollAll_still hO n g _).bind (fun _ => .pure _))

theorem anyRecord_still (l : List Nat) (w : World) (h : Still P F e opf page archive x w) :
    Still P F e opf page archive x (anyRecord O l w).2 := by
  induction l generalizing w with
  | nil => exact h
  | cons m l ih =>
    unfold anyRecord
    have h1 := hO.record m w h
    generalize O.record m w = q at h1 ⊢
    obtain ⟨r, w1⟩ := q
    cases r with
    | error e => exact h1
    | ok c => cases c with
      | true => exact h1
      | false => exact ih w1 h1

theorem groupRecord_still (hp : Packing P b F e opf page archive) (hn : P.node n = some (.group g)) (w : World)
    (h : Still P F e opf page archive x w) : Still P F e opf page archive x (P.groupRecord O n g w).2 := by
  unfold Project.groupRecord
  by_cases hg : g.parallel = true
  · rw [if_pos hg]; exact anyRecord_still hO _ _ h
  · rw [if_neg hg]
    cases hb : P.cfg.buildNeeded w.fs w.db g.inputs g.output true with
    | none => exact h
    | some q =>
      exact h.note hp (r := q.1) (db' := q.2) hb
        (.inr (fun k hk => (hp.apart w.fs w.fs k h.files h.files hk).2 n g hn (by simpa using hg)))

theorem record_still (hp : Packing P b F e opf page archive) (hn : P.node n = some (.group g)) :
    Holds (Still P F e opf page archive x) (Builder.record (P.subsOf O n g)) := by
  intro s h
  have h1 := groupRecord_still hO n g hp hn s.w h
  show Still P F e opf page archive x ((P.subsOf O n g).record s.w).2
  unfold Project.subsOf
  simp only
  generalize P.groupRecord O n g s.w = q at h1 ⊢
  obtain ⟨r, w1⟩ := q
  cases r <;> exact h1

theorem runOnce_still (par : Bool) (l : List Nat) : Holds (Still P F e opf page archive x) (runOnce (P.subsOf O n g) par l) := by
  induction l with
  | nil => exact .pure _
  | cons m l ih =>
    unfold runOnce
    intro s hs
    have h1 := poll_still hO n g m s hs
    cases hq : poll (P.subsOf O n g) m s with
    | mk r rest =>
      obtain ⟨s', t⟩ := rest
      rw [hq] at h1
      cases r with
      | error er => rw [bind_error _ _ _ _ _ _ hq]; exact h1
      | ok st =>
        rw [bind_ok _ _ _ _ _ _ hq]
        have hm : st ≠ .done → m ≠ e := by
          rintro hst rfl
          refine hst (hO.never s.w st hs ?_)
          have := congrArg Prod.fst hq
          exact this
        cases st with
        | done => exact ih s' h1
        | building => cases par <;> [exact h1; exact ih s' h1]
        | ready =>
          have hb : Holds (Still P F e opf page archive x) (buildSub (P.subsOf O n g) m) := fun s h => hO.build m s.w (hm (by decide)) h
          cases par with
          | false => exact hb.bind (fun _ => .pure _) s' h1
          | true => exact hb.bind (fun _ => ih) s' h1
        | missingParameters => exact h1
        | missingOutfile => exact h1
        | cancelled => exact h1

theorem clearDone_still (l : List Nat) : Holds (Still P F e opf page archive x) (clearDone (P.subsOf O n g) l) := by
  induction l with
  | nil => exact .pure _
  | cons m l ih =>
    unfold clearDone
    refine (poll_still hO n g m).bind (fun st => ?_)
    by_cases hd : st = .done
    · rw [if_pos hd]
      exact Holds.bind (y := remove m) (fun _ h => h) (fun _ => ih)
    · rw [if_neg hd]; exact ih

theorem finish_still (hp : Packing P b F e opf page archive) (hn : P.node n = some (.group g)) (clear : Bool) :
    Holds (Still P F e opf page archive x) (finish (P.subsOf O n g) clear) := by
  have tail : ∀ st : Status, Holds (Still P F e opf page archive x) (do
        if clear then
          let subs ← getSubs
          clearDone (P.subsOf O n g) subs
        pure st : M World Status) := by
    intro st
    cases clear with
    | false => exact .pure _
    | true => exact Holds.bind (y := getSubs) (fun _ h => h) (fun _ => (clearDone_still hO n g _).bind (fun _ => .pure _))
  unfold finish
  refine (compStatus_still hO n g).bind (fun st => ?_)
  by_cases hd : st = .done
  · rw [if_pos hd]
    exact (record_still hO n g hp hn).bind (fun _ => tail st)
  · rw [if_neg hd]; exact tail st

theorem build_still (hp : Packing P b F e opf page archive) (hn : P.node n = some (.group g)) (par clear : Bool) :
    Holds (Still P F e opf page archive x) (Builder.build (P.subsOf O n g) par clear) := by
  unfold Builder.build
  refine (compStatus_still hO n g).bind (fun st => ?_)
  by_cases hd : st = .building ∨ st = .ready
  · rw [if_pos hd]
    exact Holds.bind (y := getSubs) (fun _ h => h)
      (fun _ => (runOnce_still hO n g par _).bind (fun _ => finish_still hO n g hp hn clear))
  · rw [if_neg hd]; exact finish_still hO n g hp hn clear

/-- The status of the builder of the epub. -/
theorem never_ready (hg : P.node n = some (.group g)) {w : World} (h : Still P F e opf page archive x w) {st : Status}
    (hs : (onSubs e (compStatus (P.subsOf O e g)) w).1 = .ok st) : st = .done := by
  unfold onSubs at hs
  simp only at hs
  rcases h.subs with hsub | hsub
  · rw [hsub] at hs
    have hst := hO.package w
    simp only [compStatus, getSubs, pollAll, poll, Project.subsOf, bind, pure] at hs
    generalize O.status opf w = q at hs hst
    obtain ⟨r, w1⟩ := q
    cases r with
    | error er => simp at hs
    | ok st' =>
      obtain rfl := hst st' h rfl
      simpa [combine] using hs.symm
  · rw [hsub] at hs
    simpa [compStatus, getSubs, pollAll, bind, pure, combine] using hs.symm

end

theorem onSubs_still {α : Type} {y : M World α} (hy : Holds (Still P F e opf page archive x) y) {n : Nat} (hn : n ≠ e) (w : World)
    (h : Still P F e opf page archive x w) : Still P F e opf page archive x (onSubs n y w).2 := by
  have h1 := hy ⟨w.subs n, w⟩ h
  unfold onSubs
  refine { h1 with subs := ?_ }
  simp only [put]
  rw [if_neg (Ne.symm hn)]
  exact h1.subs

theorem onSubs_stay {α : Type} {y : M World α} (hy : Holds (Still P F e opf page archive x) y) (hst : ∀ s, (y s).2.1.subs = s.subs)
    (n : Nat) (w : World) (h : Still P F e opf page archive x w) : Still P F e opf page archive x (onSubs n y w).2 := by
  have h1 := hy ⟨w.subs n, w⟩ h
  unfold onSubs
  refine { h1 with subs := ?_ }
  simp only [put]
  split
  · rename_i he
    rw [hst]
    rw [← he]
    exact h.subs
  · exact h1.subs

theorem compStatus_subs (S : Subs World) (s : State World) : (compStatus S s).2.1.subs = s.subs := by
  have hpoll : ∀ (l : List Nat) (s : State World), (pollAll S l s).2.1.subs = s.subs := by
    intro l
    induction l with
    | nil => exact fun _ => rfl
    | cons m l ih =>
      intro s
      unfold pollAll
      cases hq : poll S m s with
      | mk r rest =>
        obtain ⟨s', t⟩ := rest
        have hs' : s'.subs = s.subs := by
          have := congrArg (fun q => q.2.1.subs) hq
          exact this.symm
        cases r with
        | error er => rw [bind_error _ _ _ _ _ _ hq]; exact hs'
        | ok st =>
          rw [bind_ok _ _ _ _ _ _ hq]
          have h2 := ih s'
          cases hq2 : pollAll S l s' with
          | mk r2 rest2 =>
            obtain ⟨s2, t2⟩ := rest2
            rw [hq2] at h2
            cases r2 with
            | error er => rw [bind_error _ _ _ _ _ _ hq2]; exact h2.trans hs'
            | ok sts => rw [bind_ok _ _ _ _ _ _ hq2]; exact h2.trans hs'
  unfold compStatus
  have h1 := hpoll s.subs s
  rw [bind_ok getSubs _ s s s.subs [] rfl]
  cases hq2 : pollAll S s.subs s with
  | mk r2 rest2 =>
    obtain ⟨s2, t2⟩ := rest2
    rw [hq2] at h1
    cases r2 with
    | error er => rw [bind_error _ _ _ _ _ _ hq2]; exact h1
    | ok sts => rw [bind_ok _ _ _ _ _ _ hq2]; exact h1

theorem opsPack_still (hp : Packing P b F e opf page archive) (k : Nat) : Stills P F e opf page archive x (P.opsPack b k) := by
  induction k with
  | zero => exact ⟨fun _ _ h => h, fun _ _ _ h => h, fun _ _ h => h, fun _ _ _ h => (by cases h), fun _ _ _ h => (by cases h)⟩
  | succ k ih =>
    refine ⟨?_, ?_, ?_, ?_, ?_⟩
    · intro n w h
      simp only [Project.opsPack]
      cases hn : P.node n with
      | none => exact h
      | some nd =>
        cases nd with
        | step s => exact (h.stepStatus hp hn).1
        | group g => exact onSubs_stay (compStatus_still ih n g) (compStatus_subs _) n w h
    · intro n w hne h
      simp only [Project.opsPack]
      cases hn : P.node n with
      | none => exact h
      | some nd =>
        cases nd with
        | step s => exact h.stepBuild hp hn
        | group g =>
          have h1 := onSubs_still (build_still ih n g hp hn g.parallel g.clear) hne w h
          simp only
          generalize onSubs n (Builder.build (P.subsOf (P.opsPack b k) n g) g.parallel g.clear) w = q at h1 ⊢
          obtain ⟨r, w1⟩ := q
          cases r with
          | error er => exact h1
          | ok st =>
            simp only [hp.single n hne]
            exact h1
    · intro n w h
      simp only [Project.opsPack]
      cases hn : P.node n with
      | none => exact h
      | some nd =>
        cases nd with
        | step s =>
          simp only
          cases hr : P.stepRecord s w with
          | none => exact h
          | some q => exact h.stepRecord hp hn (r := q.1) (w' := q.2) hr
        | group g => exact groupRecord_still ih n g hp hn w h
    · intro w st h hs
      simp only [Project.opsPack, hp.render.1] at hs
      rw [(h.stepStatus hp hp.render.1).2 rfl] at hs
      exact (Except.ok.inj hs).symm
    · intro w st h hs
      obtain ⟨g, hg, _⟩ := hp.group
      simp only [Project.opsPack, hg] at hs
      exact never_ready ih e g hg h hs

theorem buildPack_still (hp : Packing P b F e opf page archive) (k root rounds : Nat) (hr : root ≠ e) (w : World)
    (h : Still P F e opf page archive x w) : Still P F e opf page archive x (P.buildPack b k root rounds w).2 := by
  have hO : Stills P F e opf page archive x (P.opsPack b k) := opsPack_still hp k
  induction rounds generalizing w with
  | zero => exact h
  | succ r ih =>
    unfold Project.buildPack
    have h1 := hO.status root w h
    generalize (P.opsPack b k).status root w = q at h1 ⊢
    obtain ⟨st, w1⟩ := q
    cases st with
    | error e => exact h1
    | ok st =>
      simp only at h1 ⊢
      by_cases hb : st = .building ∨ st = .ready
      · rw [if_pos hb]
        have h2 := hO.build root w1 hr h1
        generalize (P.opsPack b k).build root w1 = q at h2 ⊢
        obtain ⟨y, w2⟩ := q
        cases y with
        | error e => exact h2
        | ok u => exact ih w2 h2
      · rw [if_neg hb]
        have h2 := hO.status root w1 h1
        generalize (P.opsPack b k).status root w1 = q at h2 ⊢
        obtain ⟨y, w2⟩ := q
        cases y <;> exact h2

end Verif.Build
