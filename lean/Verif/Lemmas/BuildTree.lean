import Verif.Lemmas.Build

/-! # Lemmas about composite builders in the build of a document -/

namespace Verif.Build

open Verif Verif.Decider Verif.Builder

variable {P : Project} {U : Scope} {subs0 : Nat → List Nat} {free : Ghost} {w : World} {S : Nat → Prop}

theorem Guarded.mono {Q : Nat → Prop} {n : Nat} (h : Guarded P subs0 Q n) : ∀ {Q' : Nat → Prop}, (∀ i, Q i → Q' i) → Guarded P subs0 Q' n := by
  induction h with
  | step Q n s hn hc => exact fun hQ => .step _ n s hn (hc.mono hQ)
  | parallel Q n g hn hp _ ih => exact fun hQ => .parallel _ n g hn hp (fun m hm => ih m hm hQ)
  | sequence Q n g hn hp _ ih =>
    intro Q' hQ
    refine .sequence _ n g hn hp (fun a m b h => ih a m b h ?_)
    rintro i (h | h)
    · exact .inl (hQ i h)
    · exact .inr h

/-- Each builder of a list uses what is made by `S` and by the builders before it, or is an exception. -/
def Cond (P : Project) (subs0 : Nat → List Nat) (A : Nat → Prop) (S : Nat → Prop) (l : List Nat) : Prop :=
  ∀ a m b, l = a ++ m :: b → Guarded P subs0 (fun i => S i ∨ ∃ x ∈ a, Part P subs0 x i) m ∨ A m

theorem Cond.head {A S : Nat → Prop} {m : Nat} {l : List Nat} (h : Cond P subs0 A S (m :: l)) : Guarded P subs0 S m ∨ A m := by
  rcases h [] m l rfl with h | h
  · exact .inl (h.mono (by rintro i (h | ⟨x, hx, _⟩); exact h; simp at hx))
  · exact .inr h

theorem Cond.tail {A S S' : Nat → Prop} {m : Nat} {l : List Nat} (h : Cond P subs0 A S (m :: l)) (hS : ∀ i, S i → S' i)
    (hm : ∀ i, Part P subs0 m i → S' i) : Cond P subs0 A S' l := by
  intro a x b hl
  rcases h (m :: a) x b (by rw [hl]; rfl) with h | h
  · refine .inl (h.mono ?_)
    rintro i (h | ⟨y, hy, hi⟩)
    · exact .inl (hS i h)
    · rcases List.mem_cons.1 hy with rfl | hy
      · exact .inl (hm i hi)
      · exact .inr ⟨y, hy, hi⟩
  · exact .inr h

theorem Cond.cons {A S : Nat → Prop} {m : Nat} {l : List Nat} (h : Guarded P subs0 S m ∨ A m)
    (h' : Cond P subs0 A (fun i => S i ∨ Part P subs0 m i) l) : Cond P subs0 A S (m :: l) := by
  intro a x b hl
  cases a with
  | nil =>
    simp only [List.nil_append, List.cons.injEq] at hl
    rw [← hl.1]
    rcases h with h | h
    · exact .inl (h.mono (fun _ h => .inl h))
    · exact .inr h
  | cons y a =>
    simp only [List.cons_append, List.cons.injEq] at hl
    rcases h' a x b hl.2 with h | h
    · refine .inl (h.mono ?_)
      rintro i ((h | h) | ⟨z, hz, hi⟩)
      · exact .inl h
      · exact .inr ⟨y, by simp, hl.1 ▸ h⟩
      · exact .inr ⟨z, by simp [hz], hi⟩
    · exact .inr h

theorem Cond.shrunk {A S : Nat → Prop} {l l' : List Nat} (hsh : Shrunk P subs0 S l l') :
    ∀ S', (∀ i, S i → S' i) → Cond P subs0 A S' l → Cond P subs0 A S' l' := by
  induction hsh with
  | nil => exact fun _ _ h => h
  | keep m l l' _ ih =>
    intro S' hS h
    exact .cons h.head (ih _ (fun i hi => .inl (hS i hi)) (h.tail (fun _ h => .inl h) (fun _ h => .inr h)))
  | drop m l l' hm _ ih =>
    intro S' hS h
    exact ih S' hS (h.tail (fun _ h => h) (fun i hi => hS i (hm i hi)))

theorem Cond.mono {A S S' : Nat → Prop} {l : List Nat} (h : Cond P subs0 A S l) (hS : ∀ i, S i → S' i) : Cond P subs0 A S' l := by
  intro a m b hl
  rcases h a m b hl with h | h
  · refine .inl (h.mono ?_)
    rintro i (h | h)
    · exact .inl (hS i h)
    · exact .inr h
  · exact .inr h

theorem Cond.all {A S : Nat → Prop} {l : List Nat} (h : ∀ m ∈ l, Guarded P subs0 S m ∨ A m) : Cond P subs0 A S l := by
  intro a m b hl
  rcases h m (by rw [hl]; simp) with h | h
  · exact .inl (h.mono (fun _ h => .inl h))
  · exact .inr h

/-! ### Operations on builders -/

/-- What is known of the operations that ask builders and record. -/
structure Asks (P : Project) (U : Scope) (subs0 : Nat → List Nat) (free : Ghost) (O : Ops) : Prop where
  status : ∀ n w S, Inv P U subs0 free w S → ∃ S', Next P U subs0 free w S (O.status n w).2 S' ∧
    ((O.status n w).1 = .ok .done → (Guarded P subs0 S n ∨ ∀ i, Part P subs0 n i → free i) → ∀ i, Part P subs0 n i → S' i)
  record : ∀ n w S, Inv P U subs0 free w S → (∀ i, Part P subs0 n i → S i) → ∃ S', Next P U subs0 free w S (O.record n w).2 S'

/-- What is known of the operations on the builders. -/
structure Good (P : Project) (U : Scope) (subs0 : Nat → List Nat) (free : Ghost) (O : Ops) : Prop extends Asks P U subs0 free O where
  build : ∀ n w S, Inv P U subs0 free w S → Guarded P subs0 S n → ∃ S', Next P U subs0 free w S (O.build n w).2 S'

/-- A state in which the steps of `S` are settled. -/
structure St (P : Project) (U : Scope) (subs0 : Nat → List Nat) (free : Ghost) (n : Nat) (s : State World) (S : Nat → Prop) : Prop where
  inv : Inv P U subs0 free s.w S
  left : Shrunk P subs0 S (subs0 n) s.subs

/-- A computation of the composite builder `n` leads to a state in which more is settled, with `Q` if it does not raise. -/
def Trip (P : Project) (U : Scope) (subs0 : Nat → List Nat) (free : Ghost) (n : Nat) {α : Type} (x : M World α) (s : State World)
    (S : Nat → Prop) (Q : α → State World → (Nat → Prop) → Prop) : Prop :=
  ∃ S', Next P U subs0 free s.w S (x s).2.1.w S' ∧ St P U subs0 free n (x s).2.1 S' ∧ ∀ a, (x s).1 = .ok a → Q a (x s).2.1 S'

theorem Trip.bind {n : Nat} {α β : Type} {x : M World α} {f : α → M World β} {s : State World} {S : Nat → Prop}
    {Q : α → State World → (Nat → Prop) → Prop} {R : β → State World → (Nat → Prop) → Prop} (hx : Trip P U subs0 free n x s S Q)
    (hf : ∀ a s' S', St P U subs0 free n s' S' → (∀ i, S i → S' i) → Q a s' S' → Trip P U subs0 free n (f a) s' S' R) :
    Trip P U subs0 free n (x >>= f) s S R := by
  obtain ⟨S1, h1, h2, h3⟩ := hx
  cases hq : x s with
  | mk r rest =>
    obtain ⟨s', t⟩ := rest
    rw [hq] at h1 h2 h3
    cases r with
    | error e =>
      unfold Trip
      rw [bind_error _ _ _ _ _ _ hq]
      exact ⟨S1, h1, h2, fun a h => by cases h⟩
    | ok a =>
      unfold Trip
      rw [bind_ok _ _ _ _ _ _ hq]
      obtain ⟨S2, h4, h5, h6⟩ := hf a s' S1 h2 h1.more (h3 a rfl)
      exact ⟨S2, h1.trans h4, h5, h6⟩

theorem Trip.pure {n : Nat} {α : Type} {a : α} {s : State World} {S : Nat → Prop} {Q : α → State World → (Nat → Prop) → Prop}
    (hs : St P U subs0 free n s S) (hQ : Q a s S) : Trip P U subs0 free n (Pure.pure a) s S Q :=
  ⟨S, .refl hs.inv, hs, fun b h => by cases h; exact hQ⟩

theorem Trip.weaken {n : Nat} {α : Type} {x : M World α} {s : State World} {S : Nat → Prop}
    {Q Q' : α → State World → (Nat → Prop) → Prop} (h : Trip P U subs0 free n x s S Q)
    (hQ : ∀ a s' S', (∀ i, S i → S' i) → Q a s' S' → Q' a s' S') : Trip P U subs0 free n x s S Q' := by
  obtain ⟨S1, h1, h2, h3⟩ := h
  exact ⟨S1, h1, h2, fun a ha => hQ a _ _ h1.more (h3 a ha)⟩

section
variable {O : Ops} (hO : Asks P U subs0 free O) (n : Nat) (g : Group)
include hO

theorem poll_trip (m : Nat) (s : State World) (S : Nat → Prop) (hs : St P U subs0 free n s S) :
    Trip P U subs0 free n (poll (P.subsOf O n g) m) s S fun st s' S' => s'.subs = s.subs ∧
      (st = .done → (Guarded P subs0 S m ∨ ∀ i, Part P subs0 m i → free i) → ∀ i, Part P subs0 m i → S' i) := by
  obtain ⟨S1, h1, h2⟩ := hO.status m s.w S hs.inv
  exact ⟨S1, h1, ⟨h1.inv, hs.left.mono h1.more⟩, fun st h => ⟨rfl, fun hd => h2 (by rw [← hd]; exact h)⟩⟩

theorem pollAll_trip (l : List Nat) (s : State World) (S : Nat → Prop) (hs : St P U subs0 free n s S) :
    Trip P U subs0 free n (pollAll (P.subsOf O n g) l) s S fun sts s' S' => s'.subs = s.subs ∧
      ((∀ st ∈ sts, st = .done) → Cond P subs0 (fun m => ∀ i, Part P subs0 m i → free i) S l → ∀ m ∈ l, ∀ i, Part P subs0 m i → S' i) := by
  induction l generalizing s S with
  | nil => exact .pure hs ⟨rfl, fun _ _ m hm => absurd hm (List.not_mem_nil)⟩
  | cons m l ih =>
    unfold pollAll
    refine (poll_trip hO n g m s S hs).bind ?_
    rintro st s1 S1 hs1 hm1 ⟨he1, hd1⟩
    refine (ih s1 S1 hs1).bind ?_
    rintro sts s2 S2 hs2 hm2 ⟨he2, hd2⟩
    refine .pure hs2 ⟨by rw [he2, he1], ?_⟩
    intro hall hc x hx i hi
    have hm := hd1 (hall st (by simp)) hc.head
    rcases List.mem_cons.1 hx with rfl | hx
    · exact hm2 i (hm i hi)
    · exact hd2 (fun st hst => hall st (by simp [hst])) (hc.tail hm1 hm) x hx i hi

/-- What is required to know from its status 'done' that a composite builder is settled. -/
theorem compStatus_trip (s : State World) (S : Nat → Prop) (hs : St P U subs0 free n s S) :
    Trip P U subs0 free n (compStatus (P.subsOf O n g)) s S fun st s' S' => s'.subs = s.subs ∧
      (st = .done → Cond P subs0 (fun m => ∀ i, Part P subs0 m i → free i) S (subs0 n) → ∀ m ∈ subs0 n, ∀ i, Part P subs0 m i → S' i) := by
  unfold compStatus
  have hg : Trip P U subs0 free n (getSubs (W := World)) s S fun l s' S' => l = s.subs ∧ s' = s ∧ S' = S :=
    ⟨S, .refl hs.inv, hs, fun l h => by
      refine ⟨?_, rfl, rfl⟩
      have : (Except.ok s.subs : Except Builder.Err _) = .ok l := h
      injection this with this
      exact this.symm⟩
  refine hg.bind ?_
  rintro l s1 S1 hs1 _ ⟨rfl, rfl, rfl⟩
  refine (pollAll_trip hO n g s1.subs s1 S1 hs1).bind ?_
  rintro sts s2 S2 hs2 hm2 ⟨he2, hd2⟩
  refine .pure hs2 ⟨he2, ?_⟩
  intro hst hc m hm i hi
  have hall : ∀ st ∈ sts, st = .done := by
    unfold combine at hst
    intro st hmem
    by_cases hne : st = .done
    · exact hne
    · have : st ∈ sts.filter (· ≠ .done) := List.mem_filter.2 ⟨hmem, by simpa using hne⟩
      cases hf : sts.filter (· ≠ .done) with
      | nil => rw [hf] at this; exact absurd this (List.not_mem_nil)
      | cons x l =>
        rw [hf] at hst
        simp only at hst
        have hx : x ∈ sts.filter (· ≠ .done) := by rw [hf]; simp
        have := (List.mem_filter.1 hx).2
        rw [hst] at this
        simp at this
  have hc' := Cond.shrunk hs1.left S1 (fun _ h => h) hc
  rcases hs1.left.part m i hm hi with h | h
  · exact hm2 i h
  · exact hd2 hall hc' m h i hi

theorem clearDone_trip (l : List Nat) (s : State World) (S : Nat → Prop) (hs : St P U subs0 free n s S)
    (hc : ∀ m ∈ l, Guarded P subs0 S m ∨ ∀ i, Part P subs0 m i → free i) :
    Trip P U subs0 free n (clearDone (P.subsOf O n g) l) s S fun _ _ _ => True := by
  induction l generalizing s S with
  | nil => exact .pure hs trivial
  | cons m l ih =>
    unfold clearDone
    refine (poll_trip hO n g m s S hs).bind ?_
    rintro st s1 S1 hs1 hm1 ⟨he1, hd1⟩
    have hc1 : ∀ x ∈ l, Guarded P subs0 S1 x ∨ ∀ i, Part P subs0 x i → free i := by
      intro x hx
      rcases hc x (by simp [hx]) with h | h
      · exact .inl (h.mono hm1)
      · exact .inr h
    split
    · rename_i hst
      have hr : Trip P U subs0 free n (remove (W := World) m) s1 S1 fun _ _ S' => S' = S1 :=
        ⟨S1, .refl hs1.inv, ⟨hs1.inv, hs1.left.erase m (hd1 hst (hc m (by simp)))⟩, fun _ _ => rfl⟩
      refine hr.bind ?_
      rintro _ s2 S2 hs2 hm2 rfl
      exact ih s2 S2 hs2 hc1
    · refine Trip.bind (x := (pure PUnit.unit : M World PUnit)) (f := fun _ => clearDone (P.subsOf O n g) l)
        (Q := fun _ s' S' => s' = s1 ∧ S' = S1) (.pure hs1 ⟨rfl, rfl⟩) ?_
      rintro _ s2 S2 hs2 _ ⟨rfl, rfl⟩
      exact ih s2 S2 hs2 hc1

theorem anyRecord_next (l : List Nat) (w : World) (S : Nat → Prop) (hI : Inv P U subs0 free w S)
    (hp : ∀ m ∈ l, ∀ i, Part P subs0 m i → S i) : ∃ S', Next P U subs0 free w S (anyRecord O l w).2 S' := by
  induction l generalizing w S with
  | nil => exact ⟨S, .refl hI⟩
  | cons m l ih =>
    unfold anyRecord
    obtain ⟨S1, h1⟩ := hO.record m w S hI (hp m (by simp))
    generalize O.record m w = q at h1 ⊢
    obtain ⟨r, w1⟩ := q
    cases r with
    | error e => exact ⟨S1, h1⟩
    | ok b =>
      cases b with
      | true => exact ⟨S1, h1⟩
      | false =>
        obtain ⟨S2, h2⟩ := ih w1 S1 h1.inv (fun x hx i hi => h1.more i (hp x (by simp [hx]) i hi))
        exact ⟨S2, h1.trans h2⟩

theorem groupRecord_next (hs : Sound P U) (hn : P.node n = some (.group g)) (w : World) (S : Nat → Prop) (hI : Inv P U subs0 free w S)
    (hp : ∀ m ∈ subs0 n, ∀ i, Part P subs0 m i → S i) : ∃ S', Next P U subs0 free w S (P.groupRecord O n g w).2 S' := by
  unfold Project.groupRecord
  by_cases hpar : g.parallel = true
  · rw [if_pos hpar]
    exact anyRecord_next hO (w.subs n) w S hI (fun m hm => hp m ((hI.left n).mem m hm))
  · rw [if_neg hpar]
    have hpar' : g.parallel = false := by simpa using hpar
    unfold Cfg.buildNeeded
    cases hf : filesMissing w.fs g.inputs g.output with
    | none => exact ⟨S, .refl hI⟩
    | some b =>
      cases b with
      | true => exact ⟨S, .refl hI⟩
      | false =>
        simp only
        cases hh : P.cfg.calculateHash w.fs g.inputs g.output with
        | none => exact ⟨S, .refl hI⟩
        | some d =>
          obtain ⟨k, o⟩ := d
          have hk := ((calculateHash_iff _ _ _ _ _ _).1 hh).1
          exact ⟨S, fun _ h => h, hI.groupRecord hs (fun s fs hU hF => hs.groups n g hn hpar' s w.fs fs k hU hI.files hF hk), fun _ _ => rfl⟩

theorem record_trip (hs : Sound P U) (hn : P.node n = some (.group g)) (s : State World) (S : Nat → Prop)
    (hst : St P U subs0 free n s S) (hp : ∀ m ∈ subs0 n, ∀ i, Part P subs0 m i → S i) :
    Trip P U subs0 free n (Builder.record (P.subsOf O n g)) s S fun _ _ _ => True := by
  obtain ⟨S1, h1⟩ := groupRecord_next hO n g hs hn s.w S hst.inv hp
  have : (Builder.record (P.subsOf O n g) s).2.1 = { s with w := (P.groupRecord O n g s.w).2 } := by
    show ({ s with w := ((P.subsOf O n g).record s.w).2 } : State World) = _
    unfold Project.subsOf
    simp only
    generalize P.groupRecord O n g s.w = q
    obtain ⟨r, w1⟩ := q
    cases r <;> rfl
  unfold Trip
  rw [this]
  exact ⟨S1, h1, ⟨h1.inv, hst.left.mono h1.more⟩, fun _ _ => trivial⟩

theorem getSubs_trip (s : State World) (S : Nat → Prop) (hs : St P U subs0 free n s S) :
    Trip P U subs0 free n (getSubs (W := World)) s S fun l s' S' => l = s.subs ∧ s' = s ∧ S' = S :=
  ⟨S, .refl hs.inv, hs, fun l h => by
    refine ⟨?_, rfl, rfl⟩
    have : (Except.ok s.subs : Except Builder.Err _) = .ok l := h
    injection this with this
    exact this.symm⟩

theorem finish_trip (hs : Sound P U) (hn : P.node n = some (.group g)) (clear : Bool) (s : State World) (S : Nat → Prop)
    (hst : St P U subs0 free n s S) (hc : Cond P subs0 (fun _ => False) S (subs0 n))
    (hcl : clear = true → ∀ m ∈ subs0 n, Guarded P subs0 S m ∨ ∀ i, Part P subs0 m i → free i) :
    Trip P U subs0 free n (finish (P.subsOf O n g) clear) s S fun _ _ _ => True := by
  have hc' : Cond P subs0 (fun m => ∀ i, Part P subs0 m i → free i) S (subs0 n) := fun a m b h => .inl ((hc a m b h).resolve_right id)
  have tail : ∀ (st : Status) (s1 : State World) (S1 : Nat → Prop), St P U subs0 free n s1 S1 → (∀ i, S i → S1 i) →
      Trip P U subs0 free n (do
        if clear then
          let subs ← getSubs
          clearDone (P.subsOf O n g) subs
        pure st) s1 S1 fun _ _ _ => True := by
    intro st s1 S1 hs1 hm1
    cases clear with
    | false =>
      simp only [Bool.false_eq_true, if_false]
      exact Trip.bind (x := (pure PUnit.unit : M World PUnit)) (f := fun _ => (pure st : M World Status)) (Q := fun _ _ _ => True)
        (.pure hs1 trivial) (fun _ s2 S2 hs2 _ _ => .pure hs2 trivial)
    | true =>
      simp only [if_true]
      refine (getSubs_trip hO n s1 S1 hs1).bind ?_
      rintro l s2 S2 hs2 _ ⟨rfl, rfl, rfl⟩
      refine (clearDone_trip hO n g s2.subs s2 S2 hs2 ?_).bind (fun _ s3 S3 hs3 _ _ => .pure hs3 trivial)
      intro m hm
      rcases hcl rfl m (hs2.left.mem m hm) with h | h
      · exact .inl (h.mono hm1)
      · exact .inr h
  unfold finish
  refine (compStatus_trip hO n g s S hst).bind ?_
  rintro st s1 S1 hs1 hm1 ⟨_, hd1⟩
  by_cases hd : st = .done
  · rw [if_pos hd]
    refine (record_trip hO n g hs hn s1 S1 hs1 (hd1 hd hc')).bind ?_
    rintro _ s2 S2 hs2 hm2 _
    exact tail st s2 S2 hs2 (fun i hi => hm2 i (hm1 i hi))
  · rw [if_neg hd]
    exact tail st s1 S1 hs1 hm1

end

section
variable {O : Ops} (hO : Good P U subs0 free O) (n : Nat) (g : Group)
include hO

theorem buildSub_trip (m : Nat) (s : State World) (S : Nat → Prop) (hs : St P U subs0 free n s S) (hg : Guarded P subs0 S m) :
    Trip P U subs0 free n (buildSub (P.subsOf O n g) m) s S fun _ _ _ => True := by
  obtain ⟨S1, h1⟩ := hO.build m s.w S hs.inv hg
  exact ⟨S1, h1, ⟨h1.inv, hs.left.mono h1.more⟩, fun _ _ => trivial⟩

theorem runOnce_trip (par : Bool) (l : List Nat) (s : State World) (S : Nat → Prop) (hs : St P U subs0 free n s S)
    (hc : if par then ∀ m ∈ l, Guarded P subs0 S m else Cond P subs0 (fun _ => False) S l) :
    Trip P U subs0 free n (runOnce (P.subsOf O n g) par l) s S fun _ _ _ => True := by
  induction l generalizing s S with
  | nil => exact .pure hs trivial
  | cons m l ih =>
    unfold runOnce
    have hgm : Guarded P subs0 S m := by
      cases par with
      | true => rw [if_pos rfl] at hc; exact hc m (by simp)
      | false =>
        rw [if_neg (by simp)] at hc
        exact hc.head.resolve_right id
    refine (poll_trip hO.toAsks n g m s S hs).bind ?_
    rintro st s1 S1 hs1 hm1 ⟨he1, hd1⟩
    have hpar : par = true → (if par then ∀ m ∈ l, Guarded P subs0 S1 m else Cond P subs0 (fun _ => False) S1 l) := by
      intro hp
      rw [if_pos hp] at hc ⊢
      exact fun x hx => (hc x (by simp [hx])).mono hm1
    cases st with
    | done =>
      refine ih s1 S1 hs1 ?_
      cases hp : par with
      | true => subst hp; exact hpar rfl
      | false =>
        subst hp
        rw [if_neg (by simp)] at hc ⊢
        exact hc.tail hm1 (hd1 rfl (.inl hgm))
    | building =>
      simp only
      split
      · rename_i hp; exact ih s1 S1 hs1 (hpar hp)
      · exact .pure hs1 trivial
    | ready =>
      simp only
      refine (buildSub_trip hO n g m s1 S1 hs1 (hgm.mono hm1)).bind ?_
      rintro _ s2 S2 hs2 hm2 _
      split
      · rename_i hp
        refine ih s2 S2 hs2 ?_
        rw [if_pos hp] at hc ⊢
        exact fun x hx => (hc x (by simp [hx])).mono (fun i hi => hm2 i (hm1 i hi))
      · exact .pure hs2 trivial
    | missingParameters => exact .pure hs1 trivial
    | missingOutfile => exact .pure hs1 trivial
    | cancelled => exact .pure hs1 trivial

theorem build_trip (hs : Sound P U) (hn : P.node n = some (.group g)) (s : State World) (S : Nat → Prop)
    (hst : St P U subs0 free n s S)
    (hg : if g.parallel then ∀ m ∈ subs0 n, Guarded P subs0 S m else Cond P subs0 (fun _ => False) S (subs0 n))
    (hcl : g.clear = true → ∀ m ∈ subs0 n, Guarded P subs0 S m ∨ ∀ i, Part P subs0 m i → free i) :
    Trip P U subs0 free n (Builder.build (P.subsOf O n g) g.parallel g.clear) s S fun _ _ _ => True := by
  have hc : Cond P subs0 (fun _ => False) S (subs0 n) := by
    split at hg
    · exact Cond.all (fun m hm => .inl (hg m hm))
    · exact hg
  have tail : ∀ (s1 : State World) (S1 : Nat → Prop), St P U subs0 free n s1 S1 → (∀ i, S i → S1 i) →
      Trip P U subs0 free n (finish (P.subsOf O n g) g.clear) s1 S1 fun _ _ _ => True := by
    intro s1 S1 hs1 hm1
    refine finish_trip hO.toAsks n g hs hn g.clear s1 S1 hs1 (hc.mono hm1) (fun h m hm => ?_)
    rcases hcl h m hm with h | h
    · exact .inl (h.mono hm1)
    · exact .inr h
  unfold Builder.build
  refine (compStatus_trip hO.toAsks n g s S hst).bind ?_
  rintro st s1 S1 hs1 hm1 _
  by_cases hb : st = .building ∨ st = .ready
  · rw [if_pos hb]
    refine (getSubs_trip hO.toAsks n s1 S1 hs1).bind ?_
    rintro l s2 S2 hs2 _ ⟨rfl, rfl, rfl⟩
    refine (runOnce_trip hO n g g.parallel s2.subs s2 S2 hs2 ?_).bind ?_
    · split at hg
      · rename_i hp
        rw [if_pos hp]
        exact fun m hm => (hg m (hs2.left.mem m hm)).mono hm1
      · rename_i hp
        rw [if_neg hp]
        exact Cond.shrunk hs2.left S2 (fun _ h => h) (hg.mono hm1)
    · rintro _ s3 S3 hs3 hm3 _
      exact tail s3 S3 hs3 (fun i hi => hm3 i (hm1 i hi))
  · rw [if_neg hb]
    exact tail s1 S1 hs1 hm1

end

theorem Inv.setSubs (hI : Inv P U subs0 free w S) (n : Nat) (l : List Nat) (h : Shrunk P subs0 S (subs0 n) l) :
    Inv P U subs0 free { w with subs := put w.subs n l } S := by
  refine ⟨hI.truth, hI.memory, hI.files, hI.settled, hI.started, hI.found, hI.running, hI.ended, ?_, hI.absent, hI.plain, hI.once⟩
  intro m
  show Shrunk P subs0 S (subs0 m) (put w.subs n l m)
  unfold put
  split
  · rename_i he; rw [he]; exact h
  · exact hI.left m

theorem onSubs_next {α : Type} {n : Nat} {x : M World α} {Q : α → State World → (Nat → Prop) → Prop}
    (h : Trip P U subs0 free n x ⟨w.subs n, w⟩ S Q) :
    ∃ S', Next P U subs0 free w S (onSubs n x w).2 S' ∧ ∀ a, (onSubs n x w).1 = .ok a → ∃ s', Q a s' S' := by
  obtain ⟨S1, h1, h2, h3⟩ := h
  exact ⟨S1, ⟨h1.more, h2.inv.setSubs n _ h2.left, h1.kept⟩, fun a ha => ⟨_, h3 a ha⟩⟩

theorem part_group {n i : Nat} {g : Group} (hn : P.node n = some (.group g)) (h : Part P subs0 n i) :
    ∃ m ∈ subs0 n, Part P subs0 m i := by
  cases h with
  | step _ s h => rw [hn] at h; cases h
  | group _ m _ g' _ hm hp => exact ⟨m, hm, hp⟩

theorem part_step {n i : Nat} {s : Step} (hn : P.node n = some (.step s)) (h : Part P subs0 n i) : i = n := by
  cases h with
  | step _ _ _ => rfl
  | group _ m _ g' h _ _ => rw [hn] at h; cases h

theorem guarded_step {Q : Nat → Prop} {n : Nat} {s : Step} (hn : P.node n = some (.step s)) (h : Guarded P subs0 Q n) : Covered P Q s := by
  cases h with
  | step _ _ t ht hc => rw [hn] at ht; injection ht with ht; injection ht with ht; subst ht; exact hc
  | parallel _ _ g h _ _ => rw [hn] at h; cases h
  | sequence _ _ g h _ _ => rw [hn] at h; cases h

theorem guarded_group {Q : Nat → Prop} {n : Nat} {g : Group} (hn : P.node n = some (.group g)) (h : Guarded P subs0 Q n) :
    if g.parallel then ∀ m ∈ subs0 n, Guarded P subs0 Q m else Cond P subs0 (fun _ => False) Q (subs0 n) := by
  cases h with
  | step _ _ t ht _ => rw [hn] at ht; cases ht
  | parallel _ _ g' h hp hm =>
    rw [hn] at h; injection h with h; injection h with h; subst h
    rw [if_pos hp]; exact hm
  | sequence _ _ g' h hp hm =>
    rw [hn] at h; injection h with h; injection h with h; subst h
    rw [if_neg (by rw [hp]; simp)]
    exact fun a m b hl => .inl (hm a m b hl)

/-- `status` of builders whose sub-builders do `O`. -/
def Project.askStatus (P : Project) (O : Ops) (n : Nat) (w : World) : Except Builder.Err Status × World :=
  match P.node n with
  | none => (.error .exception, w)
  | some (.step s) => P.stepStatus n s w
  | some (.group g) => onSubs n (compStatus (P.subsOf O n g)) w

/-- `build_needed(reset=True)` of builders whose sub-builders do `O`. -/
def Project.askRecord (P : Project) (O : Ops) (n : Nat) (w : World) : Except Builder.Err Bool × World :=
  match P.node n with
  | none => (.error .exception, w)
  | some (.step s) => match P.stepRecord s w with
    | none => (.error .exception, w)
    | some (b, w) => (.ok b, w)
  | some (.group g) => P.groupRecord O n g w

theorem asks_level (hs : Sound P U) {O O' : Ops} (ih : Asks P U subs0 free O) (hst : O'.status = P.askStatus O)
    (hre : O'.record = P.askRecord O) : Asks P U subs0 free O' := by
  refine ⟨?_, ?_⟩
  · intro n w S hI
    rw [hst]
    unfold Project.askStatus
    cases hn : P.node n with
    | none => exact ⟨S, .refl hI, fun h => by cases h⟩
    | some nd =>
      cases nd with
      | step s =>
        simp only
        obtain ⟨S1, h1, h2, _⟩ := hI.stepStatus hs hn
        refine ⟨S1, h1, ?_⟩
        intro hd hg i hi
        rw [part_step hn hi]
        refine h2 hd ?_
        rcases hg with h | h
        · exact .inl (guarded_step hn h)
        · exact .inr (h n (.step n s hn))
      | group g =>
        simp only
        obtain ⟨S1, h1, h2⟩ := onSubs_next (compStatus_trip ih n g ⟨w.subs n, w⟩ S ⟨hI, hI.left n⟩)
        refine ⟨S1, h1, ?_⟩
        intro hd hg i hi
        obtain ⟨m, hm, hi⟩ := part_group hn hi
        obtain ⟨_, _, h3⟩ := h2 _ hd
        refine h3 rfl ?_ m hm i hi
        rcases hg with h | h
        · have := guarded_group hn h
          split at this
          · exact Cond.all (fun m hm => .inl (this m hm))
          · exact fun a m b hl => .inl ((this a m b hl).resolve_right id)
        · refine Cond.all (fun m hm => .inr ?_)
          exact fun i hi => h i (.group n m i g hn hm hi)
  · intro n w S hI hp
    rw [hre]
    unfold Project.askRecord
    cases hn : P.node n with
    | none => exact ⟨S, .refl hI⟩
    | some nd =>
      cases nd with
      | step s =>
        simp only
        obtain ⟨t, h1, ⟨k', o, hd, hg⟩, _⟩ := hI.settled n (hp n (.step n s hn))
        rw [hn] at h1
        injection h1 with h1; injection h1 with h1; subst h1
        unfold Project.stepRecord
        rw [record_eq _ _ _ _ hd]
        exact ⟨S, fun _ h => h, hI.record hs (hs.known _ _ hn) hd (hI.truth s w.fs k' o (hs.known _ _ hn) hI.files hd hg), fun _ _ => rfl⟩
      | group g =>
        exact groupRecord_next ih n g hs hn w S hI (fun m hm i hi => hp i (.group n m i g hn hm hi))

theorem ops_good (hs : Sound P U)
    (hcl : ∀ n g, P.node n = some (.group g) → g.clear = true → g.parallel = false → ∀ a m b, subs0 n = a ++ m :: b → a ≠ [] →
      ∀ i, Part P subs0 m i → free i) (k : Nat) : Good P U subs0 free (P.ops k) := by
  induction k with
  | zero =>
    exact ⟨⟨fun n w S h => ⟨S, .refl h, fun h => by cases h⟩, fun n w S h _ => ⟨S, .refl h⟩⟩, fun n w S h _ => ⟨S, .refl h⟩⟩
  | succ k ih =>
    refine ⟨asks_level hs ih.toAsks rfl rfl, ?_⟩
    · intro n w S hI hg
      simp only [Project.ops]
      cases hn : P.node n with
      | none => exact ⟨S, .refl hI⟩
      | some nd =>
        cases nd with
        | step s => exact hI.stepBuild hs hn (guarded_step hn hg)
        | group g =>
          have hgg := guarded_group hn hg
          have hb := build_trip ih n g hs hn ⟨w.subs n, w⟩ S ⟨hI, hI.left n⟩ hgg (by
            intro hc m hm
            split at hgg
            · exact .inl (hgg m hm)
            · rename_i hp
              obtain ⟨a, b, hl⟩ := List.append_of_mem hm
              cases a with
              | nil =>
                refine .inl ?_
                exact (Cond.head (hl ▸ hgg)).resolve_right id
              | cons x a => exact .inr (hcl n g hn hc (by simpa using hp) _ m b hl (by simp)))
          obtain ⟨S1, h1, _⟩ := onSubs_next hb
          refine ⟨S1, ?_⟩
          simp only
          generalize onSubs n (Builder.build (P.subsOf (P.ops k) n g) g.parallel g.clear) w = q at h1 ⊢
          obtain ⟨r, w1⟩ := q
          cases r <;> exact h1

theorem build_next (hs : Sound P U)
    (hcl : ∀ n g, P.node n = some (.group g) → g.clear = true → g.parallel = false → ∀ a m b, subs0 n = a ++ m :: b → a ≠ [] →
      ∀ i, Part P subs0 m i → free i) (k root rounds : Nat) (w : World) (S : Nat → Prop) (hI : Inv P U subs0 free w S)
    (hg : Guarded P subs0 S root) :
    ∃ S', Next P U subs0 free w S (P.build k root rounds w).2 S' ∧
      ((P.build k root rounds w).1 = some (.ok .done) → ∀ i, Part P subs0 root i → S' i) := by
  have hO := ops_good hs hcl k
  induction rounds generalizing w S with
  | zero => exact ⟨S, .refl hI, fun h => by cases h⟩
  | succ r ih =>
    unfold Project.build
    obtain ⟨S1, h1, _⟩ := hO.status root w S hI
    generalize (P.ops k).status root w = q at h1 ⊢
    obtain ⟨st, w1⟩ := q
    cases st with
    | error e => exact ⟨S1, h1, fun h => by cases h⟩
    | ok st =>
      simp only at h1 ⊢
      by_cases hb : st = .building ∨ st = .ready
      · rw [if_pos hb]
        obtain ⟨S2, h2⟩ := hO.build root w1 S1 h1.inv (hg.mono h1.more)
        generalize (P.ops k).build root w1 = q at h2 ⊢
        obtain ⟨x, w2⟩ := q
        cases x with
        | error e => exact ⟨S2, h1.trans h2, fun h => by cases h⟩
        | ok u =>
          obtain ⟨S3, h3, h4⟩ := ih w2 S2 h2.inv (hg.mono (fun i hi => h2.more i (h1.more i hi)))
          exact ⟨S3, (h1.trans h2).trans h3, h4⟩
      · rw [if_neg hb]
        obtain ⟨S2, h2, h3⟩ := hO.status root w1 S1 h1.inv
        have h3' := fun h => h3 h (.inl (hg.mono h1.more))
        generalize (P.ops k).status root w1 = q at h2 h3' ⊢
        obtain ⟨x, w2⟩ := q
        cases x with
        | error e => exact ⟨S2, h1.trans h2, fun h => by cases h⟩
        | ok st2 => exact ⟨S2, h1.trans h2, fun h => h3' (by injection h)⟩

end Verif.Build
