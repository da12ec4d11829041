import Verif.Lemmas.BuildAdds

/-! # Lemmas about builds in which builders are added: what holds during them -/

namespace Verif.Build

open Verif Verif.Decider Verif.Builder

variable {P : Project} {U : Scope} {A : Nat → List Nat} {a : Adds} {free : Ghost}

/-- The invariant, with the builders that were added. -/
structure Held (P : Project) (U : Scope) (A : Nat → List Nat) (a : Adds) (free : Ghost) (w : World) (S : Nat → Prop) : Prop where
  inv : Inv P U (grown A a w.runs) free w S
  fix : ∀ k, HasTarget A a k → w.subs k = grown A a w.runs k

/-- What an operation on the builder `n` does. -/
structure Out (P : Project) (U : Scope) (A : Nat → List Nat) (a : Adds) (free : Ghost) (n : Nat) (w : World) (S : Nat → Prop)
    (w' : World) (S' : Nat → Prop) : Prop where
  more : ∀ i, S i → S' i
  held : Held P U A a free w' S'
  kept : ∀ i, S i → w'.runs i = w.runs i
  mono : ∀ k p l, a k = some (p, l) → w.runs p ≠ 0 → w'.runs p ≠ 0
  ran : ∀ k p l, a k = some (p, l) → w.runs p = 0 → w'.runs p ≠ 0 → Part P (grown A a fun _ => 1) n p
  carry : ∀ k l, Shrunk P (grown A a w.runs) S (grown A a w.runs k) l → (HasTarget A a k → l = grown A a w.runs k) →
    grown A a w'.runs k = grown A a w.runs k → Shrunk P (grown A a w'.runs) S' (grown A a w'.runs k) l

theorem Out.refl {n : Nat} {w : World} {S : Nat → Prop} (h : Held P U A a free w S) : Out P U A a free n w S w S :=
  ⟨fun _ h => h, h, fun _ _ => rfl, fun _ _ _ _ h => h, fun _ _ _ _ h h' => absurd h h', fun _ _ h _ _ => h⟩

theorem grown_between {r1 r2 r3 : Nat → Nat} (h12 : ∀ k p l, a k = some (p, l) → r1 p ≠ 0 → r2 p ≠ 0)
    (h23 : ∀ k p l, a k = some (p, l) → r2 p ≠ 0 → r3 p ≠ 0) {k : Nat} (h : grown A a r3 k = grown A a r1 k) :
    grown A a r2 k = grown A a r1 k := by
  unfold grown at *
  cases ha : a k with
  | none => rfl
  | some q =>
    obtain ⟨p, l⟩ := q
    rw [ha] at h
    simp only at h ⊢
    have h := List.append_cancel_left h
    by_cases h1 : r1 p = 0
    · by_cases h2 : r2 p = 0
      · simp [h1, h2]
      · rw [if_neg (h23 k p l ha h2), if_pos h1] at h
        simp [h1, h]
    · simp [h1, h12 k p l ha h1]

theorem Out.trans {n : Nat} {w1 w2 w3 : World} {S1 S2 S3 : Nat → Prop} (h : Out P U A a free n w1 S1 w2 S2)
    (h' : Out P U A a free n w2 S2 w3 S3) : Out P U A a free n w1 S1 w3 S3 where
  more i hi := h'.more i (h.more i hi)
  held := h'.held
  kept i hi := by rw [h'.kept i (h.more i hi), h.kept i hi]
  mono k p l ha h1 := h'.mono k p l ha (h.mono k p l ha h1)
  ran k p l ha h1 h3 := by
    by_cases h2 : w2.runs p = 0
    · exact h'.ran k p l ha h2 h3
    · exact h.ran k p l ha h1 h2
  carry k l hsh hfx he := by
    have he2 := grown_between h.mono h'.mono he
    exact h'.carry k l (h.carry k l hsh hfx he2) (fun ht => (hfx ht).trans he2.symm) (he.trans he2.symm)

/-- An operation on a sub-builder is one on the builder. -/
theorem Out.up {n m : Nat} {g : Group} (hn : P.node n = some (.group g)) (hm : m ∈ grown A a (fun _ => 1) n) {w w' : World}
    {S S' : Nat → Prop} (h : Out P U A a free m w S w' S') : Out P U A a free n w S w' S' :=
  { h with ran := fun k p l ha h1 h2 => .group n m p g hn hm (h.ran k p l ha h1 h2) }

theorem Out.quiet {n : Nat} {w w' : World} {S S' : Nat → Prop} (hh : Held P U A a free w S)
    (h : Next P U (grown A a w.runs) free w S w' S') (hq : Quiet w w') : Out P U A a free n w S w' S' where
  more := h.more
  held := ⟨by rw [hq.1]; exact h.inv, fun k hk => by rw [hq.1, hq.2]; exact hh.fix k hk⟩
  kept := h.kept
  mono k p l _ h1 := by rw [hq.1]; exact h1
  ran k p l _ h1 h2 := by rw [hq.1] at h2; exact absurd h1 h2
  carry k l h1 _ _ := by rw [hq.1]; exact h1.mono h.more

/-! ### Steps -/

theorem run_runs (i : Nat) (s : Step) (w : World) : (P.run i s w).subs = w.subs ∧ ∀ j, j ≠ i → (P.run i s w).runs j = w.runs j := by
  have hput : ∀ j, j ≠ i → put w.runs i (w.runs i + 1) j = w.runs j := fun j hj => if_neg hj
  unfold Project.run
  split
  · simp only [Project.stepRecord]
    cases P.cfg.buildNeeded (put w.fs s.out (some (s.result w.fs))) w.db s.inputs (.path s.out) true with
    | none => exact ⟨rfl, hput⟩
    | some q => exact ⟨rfl, hput⟩
  · split
    · exact ⟨rfl, hput⟩
    · exact ⟨rfl, fun _ _ => rfl⟩

theorem stepBuild_runs (i : Nat) (s : Step) (w : World) :
    (P.stepBuild i s w).2.subs = w.subs ∧ ∀ j, j ≠ i → (P.stepBuild i s w).2.runs j = w.runs j := by
  unfold Project.stepBuild
  have h1 := stepStatus_quiet (P := P) i s w
  generalize P.stepStatus i s w = q at h1 ⊢
  obtain ⟨r, w1⟩ := q
  cases r with
  | error e => exact ⟨h1.2, fun j _ => congrFun h1.1 j⟩
  | ok st =>
    simp only at h1 ⊢
    have h2 : (if st = .building ∨ st = .ready then P.run i s w1 else w1).subs = w.subs ∧
        ∀ j, j ≠ i → (if st = .building ∨ st = .ready then P.run i s w1 else w1).runs j = w.runs j := by
      split
      · have := run_runs (P := P) i s w1
        exact ⟨this.1.trans h1.2, fun j hj => (this.2 j hj).trans (congrFun h1.1 j)⟩
      · exact ⟨h1.2, fun j _ => congrFun h1.1 j⟩
    generalize (if st = .building ∨ st = .ready then P.run i s w1 else w1) = w2 at h2 ⊢
    have h3 := stepStatus_quiet (P := P) i s w2
    generalize P.stepStatus i s w2 = q at h3 ⊢
    obtain ⟨r, w3⟩ := q
    cases r <;> exact ⟨h3.2.trans h2.1, fun j hj => (congrFun h3.1 j).trans (h2.2 j hj)⟩

theorem Inv.withSubs {B B' : Nat → List Nat} {w : World} {S : Nat → Prop} (h : Inv P U B free w S) (f : Nat → List Nat)
    (hl : ∀ n, Shrunk P B' S (B' n) (f n)) : Inv P U B' free { w with subs := f } S :=
  ⟨h.truth, h.memory, h.files, h.settled, h.started, h.found, h.running, h.ended, hl, h.absent, h.plain, h.once⟩

/-- A step `i` that may have been run adds its builders. -/
theorem adds_out (hf : Fits P A a) {i : Nat} {s : Step} (hn : P.node i = some (.step s)) {w w1 : World}
    {S S1 : Nat → Prop} (hh : Held P U A a free w S) (h1 : Next P U (grown A a w.runs) free w S w1 S1) (hsub : w1.subs = w.subs)
    (hruns : ∀ j, j ≠ i → w1.runs j = w.runs j) : Out P U A a free i w S (if w1.runs i = w.runs i then w1 else a.add i w1) S1 := by
  by_cases hi : w1.runs i = w.runs i
  · rw [if_pos hi]
    refine .quiet hh h1 ⟨?_, hsub⟩
    funext j
    by_cases hj : j = i
    · rw [hj]; exact hi
    · exact hruns j hj
  · rw [if_neg hi]
    have hnS : ¬ S i := fun h => hi (h1.kept i h)
    by_cases hpage : ∃ k l, a k = some (i, l)
    · obtain ⟨k0, l0, hk0⟩ := hpage
      have h0 : w.runs i = 0 := by
        obtain ⟨s', hs', hinst⟩ := hf.pages k0 i l0 hk0
        rw [hn] at hs'; injection hs' with hs'; injection hs' with hs'; subst hs'
        rcases hh.inv.once i s hn with h | ⟨_, h | ⟨h, _⟩⟩
        · exact h
        · exact absurd h hnS
        · rw [hinst] at h; cases h
      have hfirst : First w.runs w1.runs i := ⟨h0, fun h => hi (h.trans h0.symm), hruns⟩
      have hgrow : ∀ k, grown A a w1.runs k = grown A a w.runs k ++ a.of k i := fun k => hfirst.grown _ _ _ k
      refine ⟨h1.more, ⟨?_, ?_⟩, h1.kept, ?_, ?_, ?_⟩
      · refine h1.inv.withSubs _ (fun k => ?_)
        have := shrunk_grows hf hfirst hnS (hh.fix k) (hh.inv.left k)
        simp only [hsub]
        exact this.mono h1.more
      · intro k hk
        show w1.subs k ++ a.of k i = grown A a w1.runs k
        rw [hsub, hh.fix k hk, hgrow]
      · intro k p l _ hp
        show w1.runs p ≠ 0
        by_cases hpi : p = i
        · rw [hpi]; exact hfirst.after
        · rw [hruns p hpi]; exact hp
      · intro k p l _ hp hp'
        have hp' : w1.runs p ≠ 0 := hp'
        by_cases hpi : p = i
        · subst hpi; exact .step p s hn
        · rw [hruns p hpi] at hp'; exact absurd hp hp'
      · intro k l hsh hfx he
        have he : grown A a w1.runs k = grown A a w.runs k := he
        show Shrunk P (grown A a w1.runs) S1 (grown A a w1.runs k) l
        have hof : a.of k i = [] := by
          rw [hgrow] at he
          exact List.append_right_eq_self.1 he
        have := (shrunk_grows hf hfirst hnS hfx hsh).mono h1.more
        rwa [hof, List.append_nil] at this
    · have hof : ∀ k, a.of k i = [] := by
        intro k
        unfold Adds.of
        cases ha : a k with
        | none => rfl
        | some q =>
          obtain ⟨p, l⟩ := q
          simp only
          exact if_neg (fun he : p = i => hpage ⟨k, l, by rw [ha, he]⟩)
      have hpg : ∀ k p l, a k = some (p, l) → w1.runs p = w.runs p := fun k p l ha => hruns p (fun he => hpage ⟨k, l, by rw [ha, he]⟩)
      have hgr : grown A a w1.runs = grown A a w.runs := funext fun k => grown_eq (fun p l ha => by rw [hpg k p l ha])
      have hadd : ∀ k, w1.subs k ++ a.of k i = w.subs k := fun k => by rw [hof, hsub]; simp
      refine ⟨h1.more, ⟨?_, ?_⟩, h1.kept, ?_, ?_, ?_⟩
      · show Inv P U (grown A a w1.runs) free _ S1
        rw [hgr]
        refine h1.inv.withSubs _ (fun k => ?_)
        rw [hadd, ← hsub]; exact h1.inv.left k
      · intro k hk
        show w1.subs k ++ a.of k i = grown A a w1.runs k
        rw [hadd, hgr]; exact hh.fix k hk
      · intro k p l ha hp
        show w1.runs p ≠ 0
        rw [hpg k p l ha]; exact hp
      · intro k p l ha hp hp'
        have hp' : w1.runs p ≠ 0 := hp'
        rw [hpg k p l ha] at hp'; exact absurd hp hp'
      · intro k l hsh _ _
        show Shrunk P (grown A a w1.runs) S1 (grown A a w1.runs k) l
        rw [hgr]; exact hsh.mono h1.more

theorem stepBuildAdds_out (hs : Sound P U) (hf : Fits P A a) {i : Nat} {s : Step} (hn : P.node i = some (.step s)) {w : World}
    {S : Nat → Prop} (hh : Held P U A a free w S) (hc : Covered P S s) :
    ∃ S', Out P U A a free i w S (P.stepBuildAdds a i s w).2 S' := by
  obtain ⟨S1, h1⟩ := hh.inv.stepBuild hs hn hc
  obtain ⟨hsub, hruns⟩ := stepBuild_runs (P := P) i s w
  exact ⟨S1, adds_out hf hn hh h1 hsub hruns⟩

/-! ### Composite builders -/

/-- The state of the composite builder `n`. -/
structure StA (P : Project) (U : Scope) (A : Nat → List Nat) (a : Adds) (free : Ghost) (n : Nat) (s : State World) (S : Nat → Prop) :
    Prop where
  held : Held P U A a free s.w S
  left : Shrunk P (grown A a s.w.runs) S (grown A a s.w.runs n) s.subs
  fix : HasTarget A a n → s.subs = grown A a s.w.runs n

/-- The pages that were rendered: none, or some of the builder `n`. -/
theorem Out.same {n : Nat} {w w' : World} {S S' : Nat → Prop} (h : Out P U A a free n w S w' S') :
    grown A a w'.runs = grown A a w.runs ∨ ∃ k p l, a k = some (p, l) ∧ Part P (grown A a fun _ => 1) n p := by
  by_cases hx : ∃ k p l, a k = some (p, l) ∧ w.runs p = 0 ∧ w'.runs p ≠ 0
  · obtain ⟨k, p, l, ha, h1, h2⟩ := hx
    exact .inr ⟨k, p, l, ha, h.ran k p l ha h1 h2⟩
  · refine .inl (funext fun k => grown_eq (fun p l ha => ⟨fun h1 => ?_, fun h1 => ?_⟩))
    · exact Classical.byContradiction fun h2 => h.mono k p l ha h2 h1
    · exact Classical.byContradiction fun h2 => hx ⟨k, p, l, ha, h1, h2⟩

/-- A builder still uses what is made by its own steps and settled ones only. -/
theorem Out.guarded (hf : Fits P A a) {n : Nat} {w w' : World} {S S' : Nat → Prop} (h : Out P U A a free n w S w' S')
    (hg : Guarded P (grown A a w.runs) S n) : Guarded P (grown A a w'.runs) S' n := by
  rcases h.same with he | ⟨k, p, l, ha, hp⟩
  · rw [he]; exact hg.mono h.more
  · exact (hf.guarded k p l n ha hp w'.runs).mono (fun _ h => absurd h id)

/-- The sub-builders of a builder are not added to while it is building. -/
theorem Out.stays (hf : Fits P A a) {n : Nat} {w w' : World} {S S' : Nat → Prop} (h : Out P U A a free n w S w' S') :
    grown A a w'.runs n = grown A a w.runs n := by
  refine grown_eq (fun p l ha => ⟨fun h1 => ?_, fun h1 => ?_⟩)
  · exact Classical.byContradiction fun h2 => h.mono n p l ha h2 h1
  · exact Classical.byContradiction fun h2 => hf.apart n p l ha (h.ran n p l ha h1 h2)

theorem StA.out (hf : Fits P A a) {n : Nat} {s : State World} {S S' : Nat → Prop} {w' : World} (hs : StA P U A a free n s S)
    (h : Out P U A a free n s.w S w' S') : StA P U A a free n ⟨s.subs, w'⟩ S' :=
  ⟨h.held, h.carry n s.subs hs.left hs.fix (h.stays hf), fun ht => by show s.subs = grown A a w'.runs n; rw [h.stays hf]; exact hs.fix ht⟩

/-- As `Trip`. -/
def TripA (P : Project) (U : Scope) (A : Nat → List Nat) (a : Adds) (free : Ghost) (n : Nat) {α : Type} (x : M World α)
    (s : State World) (S : Nat → Prop) (Q : α → State World → (Nat → Prop) → Prop) : Prop :=
  ∃ S', Out P U A a free n s.w S (x s).2.1.w S' ∧ StA P U A a free n (x s).2.1 S' ∧ ∀ a, (x s).1 = .ok a → Q a (x s).2.1 S'

theorem TripA.bind {n : Nat} {α β : Type} {x : M World α} {f : α → M World β} {s : State World} {S : Nat → Prop}
    {Q : α → State World → (Nat → Prop) → Prop} {R : β → State World → (Nat → Prop) → Prop} (hx : TripA P U A a free n x s S Q)
    (hf : ∀ c s' S', StA P U A a free n s' S' → Out P U A a free n s.w S s'.w S' → Q c s' S' → TripA P U A a free n (f c) s' S' R) :
    TripA P U A a free n (x >>= f) s S R := by
  obtain ⟨S1, h1, h2, h3⟩ := hx
  cases hq : x s with
  | mk r rest =>
    obtain ⟨s', t⟩ := rest
    rw [hq] at h1 h2 h3
    cases r with
    | error e =>
      unfold TripA
      rw [bind_error _ _ _ _ _ _ hq]
      exact ⟨S1, h1, h2, fun a h => by cases h⟩
    | ok c =>
      unfold TripA
      rw [bind_ok _ _ _ _ _ _ hq]
      obtain ⟨S2, h4, h5, h6⟩ := hf c s' S1 h2 h1 (h3 c rfl)
      exact ⟨S2, h1.trans h4, h5, h6⟩

theorem TripA.pure {n : Nat} {α : Type} {c : α} {s : State World} {S : Nat → Prop} {Q : α → State World → (Nat → Prop) → Prop}
    (hs : StA P U A a free n s S) (hQ : Q c s S) : TripA P U A a free n (Pure.pure c) s S Q :=
  ⟨S, .refl hs.held, hs, fun b h => by cases h; exact hQ⟩

/-- What runs nothing. -/
theorem Trip.adds {n : Nat} {α : Type} {x : M World α} {s : State World} {S : Nat → Prop} {Q : α → State World → (Nat → Prop) → Prop}
    (hs : StA P U A a free n s S) (hx : Trip P U (grown A a s.w.runs) free n x s S Q) (hq : QuietM x)
    (hst : HasTarget A a n → (x s).2.1.subs = s.subs) : TripA P U A a free n x s S Q := by
  obtain ⟨S1, h1, h2, h3⟩ := hx
  have ho : Out P U A a free n s.w S (x s).2.1.w S1 := .quiet hs.held h1 (hq s)
  refine ⟨S1, ho, ⟨ho.held, ?_, ?_⟩, h3⟩
  · rw [(hq s).1]; exact h2.left
  · intro ht
    rw [hst ht, (hq s).1]
    exact hs.fix ht

theorem StA.st {n : Nat} {s : State World} {S : Nat → Prop} (h : StA P U A a free n s S) : St P U (grown A a s.w.runs) free n s S :=
  ⟨h.held.inv, h.left⟩

/-- What is known of the operations on the builders. -/
structure GoodA (P : Project) (U : Scope) (A : Nat → List Nat) (a : Adds) (free : Ghost) (O : Ops) : Prop where
  asks : ∀ B, Asks P U B free O
  quiet : QuietOps O
  build : ∀ n w S, Held P U A a free w S → Guarded P (grown A a w.runs) S n → ∃ S', Out P U A a free n w S (O.build n w).2 S'

section
variable {O : Ops} (hf : Fits P A a) (hO : GoodA P U A a free O) (n : Nat) (g : Group)
include hf hO

theorem runOnce_adds (hn : P.node n = some (.group g)) (l : List Nat) (s : State World) (S : Nat → Prop)
    (hs : StA P U A a free n s S) (hl : ∀ m ∈ l, m ∈ grown A a s.w.runs n)
    (hc : if g.parallel then ∀ m ∈ l, Guarded P (grown A a s.w.runs) S m else Cond P (grown A a s.w.runs) (fun _ => False) S l) :
    TripA P U A a free n (runOnce (P.subsOf O n g) g.parallel l) s S fun _ _ _ => True := by
  induction l generalizing s S with
  | nil => exact .pure hs trivial
  | cons m l ih =>
    unfold runOnce
    have hgm : Guarded P (grown A a s.w.runs) S m := by
      cases hp : g.parallel with
      | true => rw [hp, if_pos rfl] at hc; exact hc m (by simp)
      | false =>
        rw [hp, if_neg (by simp)] at hc
        exact hc.head.resolve_right id
    obtain ⟨Sp, hpn, hps, hpq⟩ := poll_trip (hO.asks _) n g m s S hs.st
    have hq := poll_quiet (P := P) hO.quiet n g m
    -- the poll
    have hpoll : TripA P U A a free n (poll (P.subsOf O n g) m) s S fun st s' S' =>
        s'.subs = s.subs ∧ s'.w.runs = s.w.runs ∧ (st = .done → ∀ i, Part P (grown A a s.w.runs) m i → S' i) := by
      refine Trip.adds hs ⟨Sp, hpn, hps, fun st h => ?_⟩ hq (fun _ => rfl)
      exact ⟨rfl, (hq s).1, fun hd => (hpq st h).2 hd (.inl hgm)⟩
    refine hpoll.bind ?_
    rintro st s1 S1 hs1 ho1 ⟨he1, hr1, hd1⟩
    have hm1 := ho1.more
    have hl1 : ∀ x ∈ l, x ∈ grown A a s1.w.runs n := fun x hx => by rw [hr1]; exact hl x (by simp [hx])
    have hpar : g.parallel = true →
        (if g.parallel then ∀ m ∈ l, Guarded P (grown A a s1.w.runs) S1 m else Cond P (grown A a s1.w.runs) (fun _ => False) S1 l) := by
      intro hp
      rw [if_pos hp] at hc ⊢
      rw [hr1]
      exact fun x hx => (hc x (by simp [hx])).mono hm1
    cases st with
    | done =>
      refine ih s1 S1 hs1 hl1 ?_
      cases hp : g.parallel with
      | true =>
        have := hpar hp
        rwa [hp] at this
      | false =>
        rw [hp, if_neg (by simp)] at hc
        rw [if_neg (by simp), hr1]
        exact hc.tail hm1 (hd1 rfl)
    | building =>
      simp only
      split
      · rename_i hp; exact ih s1 S1 hs1 hl1 (hpar hp)
      · exact .pure hs1 trivial
    | ready =>
      simp only
      have hmf : m ∈ grown A a (fun _ => 1) n := grown_full s.w.runs n m (hl m (by simp))
      have hb : TripA P U A a free n (buildSub (P.subsOf O n g) m) s1 S1 fun _ _ _ => True := by
        obtain ⟨S2, h2⟩ := hO.build m s1.w S1 hs1.held (by rw [hr1]; exact hgm.mono hm1)
        have h2' := h2.up hn hmf
        exact ⟨S2, h2', hs1.out hf h2', fun _ _ => trivial⟩
      refine hb.bind ?_
      rintro _ s2 S2 hs2 ho2 _
      split
      · rename_i hp
        refine ih s2 S2 hs2 (fun x hx => ?_) ?_
        · rw [ho2.stays hf]; exact hl1 x hx
        · have h3 := hpar hp
          rw [if_pos hp] at h3 ⊢
          rcases ho2.same with he | ⟨k, p, l', ha, hpp⟩
          · rw [he]; exact fun x hx => (h3 x hx).mono ho2.more
          · have h4 := guarded_group hn (hf.guarded k p l' n ha hpp s2.w.runs)
            rw [if_pos hp] at h4
            refine fun x hx => (h4 x ?_).mono (fun _ h => absurd h id)
            rw [ho2.stays hf]; exact hl1 x hx
      · exact .pure hs2 trivial
    | missingParameters => exact .pure hs1 trivial
    | missingOutfile => exact .pure hs1 trivial
    | cancelled => exact .pure hs1 trivial

theorem build_adds (hsd : Sound P U) (hn : P.node n = some (.group g)) (s : State World) (S : Nat → Prop)
    (hs : StA P U A a free n s S) (hg : Guarded P (grown A a s.w.runs) S n)
    (hcl : ∀ r, g.clear = true → g.parallel = false → ∀ b m c, grown A a r n = b ++ m :: c → b ≠ [] →
      ∀ i, Part P (grown A a r) m i → free i) :
    TripA P U A a free n (Builder.build (P.subsOf O n g) g.parallel g.clear) s S fun _ _ _ => True := by
  have tail : ∀ (s1 : State World) (S1 : Nat → Prop), StA P U A a free n s1 S1 → Guarded P (grown A a s1.w.runs) S1 n →
      TripA P U A a free n (finish (P.subsOf O n g) g.clear) s1 S1 fun _ _ _ => True := by
    intro s1 S1 hs1 hg1
    have hgg := guarded_group hn hg1
    have hc : Cond P (grown A a s1.w.runs) (fun _ => False) S1 (grown A a s1.w.runs n) := by
      split at hgg
      · exact Cond.all (fun m hm => .inl (hgg m hm))
      · exact hgg
    refine Trip.adds hs1 (finish_trip (hO.asks _) n g hsd hn g.clear s1 S1 hs1.st hc ?_) (finish_quiet hO.quiet n g g.clear) ?_
    · intro hcc m hm
      split at hgg
      · exact .inl (hgg m hm)
      · rename_i hp
        obtain ⟨b, c, hl⟩ := List.append_of_mem hm
        cases b with
        | nil => exact .inl ((Cond.head (hl ▸ hgg)).resolve_right id)
        | cons x b => exact .inr (hcl s1.w.runs hcc (by simpa using hp) _ m c hl (by simp))
    · rintro ⟨k, hk, p, l, ha⟩
      rw [hf.kept k p l ha n g hn hk]
      exact finish_stay O n g s1
  unfold Builder.build
  refine (Trip.adds hs (compStatus_trip (hO.asks _) n g s S hs.st) (compStatus_quiet hO.quiet n g)
    (fun _ => compStatus_stay O n g s)).bind ?_
  rintro st s1 S1 hs1 ho1 _
  have hg1 := ho1.guarded hf hg
  by_cases hb : st = .building ∨ st = .ready
  · rw [if_pos hb]
    have hget : TripA P U A a free n getSubs s1 S1 fun l s' S' => l = s'.subs ∧ s' = s1 ∧ S' = S1 :=
      ⟨S1, .refl hs1.held, hs1, fun l h => by
        refine ⟨?_, rfl, rfl⟩
        have : (Except.ok s1.subs : Except Builder.Err _) = .ok l := h
        injection this with this
        exact this.symm⟩
    refine hget.bind ?_
    rintro l s2 S2 hs2 _ ⟨rfl, rfl, rfl⟩
    have hgg := guarded_group hn hg1
    refine (runOnce_adds hf hO n g hn s2.subs s2 S2 hs2 (fun m hm => hs2.left.mem m hm) ?_).bind ?_
    · split at hgg
      · rename_i hp
        rw [if_pos hp]
        exact fun m hm => hgg m (hs2.left.mem m hm)
      · rename_i hp
        rw [if_neg hp]
        exact Cond.shrunk hs2.left S2 (fun _ h => h) hgg
    · rintro _ s3 S3 hs3 ho3 _
      exact tail s3 S3 hs3 (ho3.guarded hf hg1)
  · rw [if_neg hb]
    exact tail s1 S1 hs1 hg1

end

theorem onSubs_out {α : Type} {n : Nat} {x : M World α} {w : World} {S : Nat → Prop} {Q : α → State World → (Nat → Prop) → Prop}
    (h : TripA P U A a free n x ⟨w.subs n, w⟩ S Q) : ∃ S', Out P U A a free n w S (onSubs n x w).2 S' := by
  obtain ⟨S1, h1, h2, _⟩ := h
  refine ⟨S1, ⟨h1.more, ⟨h2.held.inv.setSubs n _ h2.left, ?_⟩, h1.kept, h1.mono, h1.ran, h1.carry⟩⟩
  intro k hk
  show put (x ⟨w.subs n, w⟩).2.1.w.subs n (x ⟨w.subs n, w⟩).2.1.subs k = grown A a (x ⟨w.subs n, w⟩).2.1.w.runs k
  unfold put
  split
  · rename_i he; subst he; exact h2.fix hk
  · exact h2.held.fix k hk

theorem opsAdds_good (hs : Sound P U) (hf : Fits P A a)
    (hcl : ∀ r n g, P.node n = some (.group g) → g.clear = true → g.parallel = false → ∀ b m c, grown A a r n = b ++ m :: c → b ≠ [] →
      ∀ i, Part P (grown A a r) m i → free i) (k : Nat) : GoodA P U A a free (P.opsAdds a k) := by
  refine ⟨fun B => opsAdds_asks hs B a k, opsAdds_quiet a k, ?_⟩
  induction k with
  | zero => exact fun n w S h _ => ⟨S, .refl h⟩
  | succ k ih =>
    intro n w S hh hg
    simp only [Project.opsAdds]
    cases hn : P.node n with
    | none => exact ⟨S, .refl hh⟩
    | some nd =>
      cases nd with
      | step s => exact stepBuildAdds_out hs hf hn hh (guarded_step hn hg)
      | group g =>
        have hb := build_adds hf ⟨fun B => opsAdds_asks hs B a k, opsAdds_quiet a k, ih⟩ n g hs hn ⟨w.subs n, w⟩ S
          ⟨hh, hh.inv.left n, hh.fix n⟩ hg (fun r => hcl r n g hn)
        obtain ⟨S1, h1⟩ := onSubs_out hb
        refine ⟨S1, ?_⟩
        simp only
        generalize onSubs n (Builder.build (P.subsOf (P.opsAdds a k) n g) g.parallel g.clear) w = q at h1 ⊢
        obtain ⟨r, w1⟩ := q
        cases r <;> exact h1

theorem buildAdds_out (hs : Sound P U) (hf : Fits P A a)
    (hcl : ∀ r n g, P.node n = some (.group g) → g.clear = true → g.parallel = false → ∀ b m c, grown A a r n = b ++ m :: c → b ≠ [] →
      ∀ i, Part P (grown A a r) m i → free i) (k root rounds : Nat) (w : World) (S : Nat → Prop) (hh : Held P U A a free w S)
    (hg : Guarded P (grown A a w.runs) S root) :
    ∃ S', Out P U A a free root w S (P.buildAdds a k root rounds w).2 S' ∧
      ((P.buildAdds a k root rounds w).1 = some (.ok .done) →
        ∀ i, Part P (grown A a (P.buildAdds a k root rounds w).2.runs) root i → S' i) := by
  have hO := opsAdds_good hs hf hcl k
  induction rounds generalizing w S with
  | zero => exact ⟨S, .refl hh, fun h => by cases h⟩
  | succ r ih =>
    unfold Project.buildAdds
    obtain ⟨S1, h1, _⟩ := (hO.asks _).status root w S hh.inv
    have hq1 := hO.quiet.status root w
    generalize (P.opsAdds a k).status root w = q at h1 hq1 ⊢
    obtain ⟨st, w1⟩ := q
    have ho1 : Out P U A a free root w S w1 S1 := .quiet hh h1 hq1
    cases st with
    | error e => exact ⟨S1, ho1, fun h => by cases h⟩
    | ok st =>
      simp only
      have hg1 := ho1.guarded hf hg
      by_cases hb : st = .building ∨ st = .ready
      · rw [if_pos hb]
        obtain ⟨S2, h2⟩ := hO.build root w1 S1 ho1.held hg1
        generalize (P.opsAdds a k).build root w1 = q at h2 ⊢
        obtain ⟨x, w2⟩ := q
        cases x with
        | error e => exact ⟨S2, ho1.trans h2, fun h => by cases h⟩
        | ok u =>
          obtain ⟨S3, h3, h4⟩ := ih w2 S2 h2.held (h2.guarded hf hg1)
          exact ⟨S3, (ho1.trans h2).trans h3, h4⟩
      · rw [if_neg hb]
        obtain ⟨S2, h2, h3⟩ := (hO.asks _).status root w1 S1 ho1.held.inv
        have h3' := fun h => h3 h (.inl hg1)
        have hq2 := hO.quiet.status root w1
        generalize (P.opsAdds a k).status root w1 = q at h2 h3' hq2 ⊢
        obtain ⟨x, w2⟩ := q
        have ho2 : Out P U A a free root w1 S1 w2 S2 := .quiet ho1.held h2 hq2
        cases x with
        | error e => exact ⟨S2, ho1.trans ho2, fun h => by cases h⟩
        | ok st2 =>
          refine ⟨S2, ho1.trans ho2, fun h => ?_⟩
          show ∀ i, Part P (grown A a w2.runs) root i → S2 i
          rw [hq2.1]
          exact h3' (by injection h)

/-! ### Relations that are kept -/

theorem stepBuildAdds_keep {R : World → World → Prop} (hR : Rel P R) (a : Adds) (i : Nat) (s : Step) (hn : P.node i = some (.step s))
    (w : World) : R w (P.stepBuildAdds a i s w).2 := by
  have h1 := stepBuild_keep hR i s hn w
  unfold Project.stepBuildAdds
  generalize P.stepBuild i s w = q at h1 ⊢
  obtain ⟨r, w1⟩ := q
  simp only at h1 ⊢
  split
  · exact h1
  · exact hR.trans _ _ _ h1 (hR.subs _ _)

theorem opsAdds_keep {R : World → World → Prop} (hR : Rel P R) (a : Adds) (k : Nat) : OpsKeep R (P.opsAdds a k) := by
  induction k with
  | zero => exact ⟨fun _ w => hR.refl w, fun _ w => hR.refl w, fun _ w => hR.refl w⟩
  | succ k ih =>
    refine ⟨?_, ?_, ?_⟩ <;> intro n w <;> simp only [Project.opsAdds] <;> cases hn : P.node n with
    | none => exact hR.refl w
    | some nd => ?_
    · cases nd with
      | step s => exact stepStatus_keep hR n s w
      | group g => exact onSubs_keep hR (compStatus_keep hR ih n g) n w
    · cases nd with
      | step s => exact stepBuildAdds_keep hR a n s hn w
      | group g =>
        have h1 := onSubs_keep hR (build_keep hR ih n g g.parallel g.clear) n w
        simp only
        generalize onSubs n (Builder.build (P.subsOf (P.opsAdds a k) n g) g.parallel g.clear) w = q at h1 ⊢
        obtain ⟨r, w1⟩ := q
        cases r <;> exact h1
    · cases nd with
      | step s =>
        simp only [Project.stepRecord]
        cases P.cfg.buildNeeded w.fs w.db s.inputs (.path s.out) true with
        | none => exact hR.refl w
        | some q => exact hR.db _ _
      | group g => exact groupRecord_keep hR ih n g w

theorem buildAdds_keeps {R : World → World → Prop} (hR : Rel P R) (a : Adds) (k root rounds : Nat) (w : World) :
    R w (P.buildAdds a k root rounds w).2 := by
  have hO := opsAdds_keep hR a k
  induction rounds generalizing w with
  | zero => exact hR.refl w
  | succ r ih =>
    unfold Project.buildAdds
    have h1 := hO.status root w
    generalize (P.opsAdds a k).status root w = q at h1 ⊢
    obtain ⟨st, w1⟩ := q
    cases st with
    | error e => exact h1
    | ok st =>
      simp only at h1 ⊢
      by_cases hb : st = .building ∨ st = .ready
      · rw [if_pos hb]
        have h2 := hO.build root w1
        generalize (P.opsAdds a k).build root w1 = q at h2 ⊢
        obtain ⟨x, w2⟩ := q
        cases x with
        | error e => exact hR.trans _ _ _ h1 h2
        | ok u => exact hR.trans _ _ _ h1 (hR.trans _ _ _ h2 (ih w2))
      · rw [if_neg hb]
        have h2 := hO.status root w1
        generalize (P.opsAdds a k).status root w1 = q at h2 ⊢
        obtain ⟨x, w2⟩ := q
        cases x <;> exact hR.trans _ _ _ h1 h2

end Verif.Build
