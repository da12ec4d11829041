import Verif.Lemmas.BuildLive

/-! # Lemmas about the end of builds: composite builders and the loop -/

namespace Verif.Build

open Verif Verif.Decider Verif.Builder

variable {P : Project} {U : Scope} {subs0 : Nat → List Nat} {free : Ghost}

/-- All steps of a builder are settled. -/
def Whole (P : Project) (U : Scope) (subs0 : Nat → List Nat) (free : Ghost) (w : World) (m : Nat) : Prop :=
  ∀ i, Part P subs0 m i → Top P U subs0 free w i

theorem Whole.on {w w' : World} {m : Nat} (h : Whole P U subs0 free w m) (ho : On P U subs0 free w w') : Whole P U subs0 free w' m :=
  fun i hi => ho.more i (h i hi)

/-- The step `i` is the first one of the builder `n` that is not settled. -/
inductive Head (P : Project) (U : Scope) (subs0 : Nat → List Nat) (free : Ghost) (w : World) : Nat → Nat → Prop
  | step (i : Nat) (s : Step) : P.node i = some (.step s) → Head P U subs0 free w i i
  | group (n i m : Nat) (g : Group) (a b : List Nat) : P.node n = some (.group g) → subs0 n = a ++ m :: b →
      (∀ x ∈ a, Whole P U subs0 free w x) → Head P U subs0 free w m i → Head P U subs0 free w n i

theorem Head.on {w w' : World} {n i : Nat} (h : Head P U subs0 free w n i) (ho : On P U subs0 free w w') : Head P U subs0 free w' n i := by
  induction h with
  | step i s hn => exact .step i s hn
  | group n i m g a b hn hl ha _ ih => exact .group n i m g a b hn hl (fun x hx => (ha x hx).on ho) ih

theorem Head.part {w : World} {n i : Nat} (h : Head P U subs0 free w n i) : Part P subs0 n i := by
  induction h with
  | step i s hn => exact .step i s hn
  | group n i m g a b hn hl ha _ ih => exact .group n m i g hn (by rw [hl]; simp) ih

/-- The step `i` is the next one to be run for the builder `n`. -/
def Due (P : Project) (U : Scope) (subs0 : Nat → List Nat) (free : Ghost) (w : World) (n i : Nat) : Prop :=
  Head P U subs0 free w n i ∧ Idle P U subs0 free w i

theorem Due.on {w w' : World} {n i : Nat} (h : Due P U subs0 free w n i) (ho : On P U subs0 free w w') :
    Due P U subs0 free w' n i ∨ Progress P U subs0 free n w w' := by
  rcases h.2.on ho with h' | h'
  · exact .inl ⟨h.1.on ho, h'⟩
  · exact .inr ⟨i, h.1.part, .inr h'⟩

/-- The answer of `status`. -/
structure Answer (P : Project) (U : Scope) (subs0 : Nat → List Nat) (free : Ghost) (n : Nat) (w w' : World) (st : Status) : Prop where
  whole : Whole P U subs0 free w n → st = .done
  clock : st ≠ .done → w.clock < w'.clock
  done : st = .done → (Guarded P subs0 (Top P U subs0 free w) n ∨ ∀ i, Part P subs0 n i → free i) → Whole P U subs0 free w' n
  cases : Guarded P subs0 (Top P U subs0 free w) n → st = .done ∨ (st = .building ∧ Progress P U subs0 free n w w') ∨
    (st = .ready ∧ ((∃ i, Due P U subs0 free w' n i) ∨ Progress P U subs0 free n w w')) ∨ (Stuck st ∧ ¬ Fine P w)
  due : Guarded P subs0 (Top P U subs0 free w) n → ∀ i, Due P U subs0 free w n i → st = .ready ∨ Progress P U subs0 free n w w'

/-- What is known of the operations on the builders of `D`. -/
structure GoodL (P : Project) (U : Scope) (subs0 : Nat → List Nat) (free : Ghost) (D : Nat → Prop) (O : Ops) : Prop where
  status : ∀ n w, D n → Live P U subs0 free w → On P U subs0 free w (O.status n w).2 ∧ (∀ e, (O.status n w).1 = .error e → ¬ Fine P w) ∧
    ∀ st, (O.status n w).1 = .ok st → Answer P U subs0 free n w (O.status n w).2 st
  build : ∀ n w, D n → Live P U subs0 free w → Guarded P subs0 (Top P U subs0 free w) n → On P U subs0 free w (O.build n w).2 ∧
    (∀ e, (O.build n w).1 = .error e → ¬ Fine P w) ∧
    (∀ i, Due P U subs0 free w n i → (O.build n w).1 = .ok () → Progress P U subs0 free n w (O.build n w).2)
  record : ∀ n w, D n → Live P U subs0 free w → Whole P U subs0 free w n → ∃ b, (O.record n w).1 = .ok b ∧ On P U subs0 free w (O.record n w).2

/-- A state of a composite builder in a build. -/
structure StL (P : Project) (U : Scope) (subs0 : Nat → List Nat) (free : Ghost) (n : Nat) (s : State World) : Prop where
  live : Live P U subs0 free s.w
  left : Shrunk P subs0 (Top P U subs0 free s.w) (subs0 n) s.subs

/-- A computation of the composite builder `n` leads to a later state, with `Q`, or raises, and not if all goes well. -/
def TripL (P : Project) (U : Scope) (subs0 : Nat → List Nat) (free : Ghost) (n : Nat) {α : Type} (x : M World α) (s : State World)
    (Q : α → State World → Prop) : Prop :=
  On P U subs0 free s.w (x s).2.1.w ∧ StL P U subs0 free n (x s).2.1 ∧ (∀ e, (x s).1 = .error e → ¬ Fine P s.w) ∧
    ∀ a, (x s).1 = .ok a → Q a (x s).2.1

theorem TripL.bind {n : Nat} {α β : Type} {x : M World α} {f : α → M World β} {s : State World}
    {Q : α → State World → Prop} {R : β → State World → Prop} (hx : TripL P U subs0 free n x s Q)
    (hf : ∀ a s', StL P U subs0 free n s' → On P U subs0 free s.w s'.w → Q a s' → TripL P U subs0 free n (f a) s' R) :
    TripL P U subs0 free n (x >>= f) s R := by
  obtain ⟨h1, h2, h3, h4⟩ := hx
  cases hq : x s with
  | mk r rest =>
    obtain ⟨s', t⟩ := rest
    rw [hq] at h1 h2 h3 h4
    cases r with
    | error e =>
      unfold TripL
      rw [bind_error _ _ _ _ _ _ hq]
      exact ⟨h1, h2, fun e' _ => h3 e rfl, fun a h => by cases h⟩
    | ok a =>
      unfold TripL
      rw [bind_ok _ _ _ _ _ _ hq]
      obtain ⟨h5, h6, h7, h8⟩ := hf a s' h2 h1 (h4 a rfl)
      exact ⟨h1.trans h5, h6, fun e he hfine => h7 e he (h1.fine hfine), h8⟩

theorem TripL.pure {n : Nat} {α : Type} {a : α} {s : State World} {Q : α → State World → Prop}
    (hs : StL P U subs0 free n s) (hQ : Q a s) : TripL P U subs0 free n (Pure.pure a) s Q :=
  ⟨.refl hs.live, hs, fun e h => (by cases h), fun b h => by cases h; exact hQ⟩

theorem TripL.weaken {n : Nat} {α : Type} {x : M World α} {s : State World} {Q Q' : α → State World → Prop}
    (h : TripL P U subs0 free n x s Q) (hQ : ∀ a s', On P U subs0 free s.w s'.w → Q a s' → Q' a s') : TripL P U subs0 free n x s Q' := by
  obtain ⟨h1, h2, h3, h4⟩ := h
  exact ⟨h1, h2, h3, fun a ha => hQ a _ h1 (h4 a ha)⟩

theorem combine_done (sts : List Status) : combine (.done :: sts) = combine sts := by simp [combine]

theorem combine_cons (st : Status) (sts : List Status) (h : st ≠ .done) : combine (st :: sts) = st := by simp [combine, h]

theorem combine_all {sts : List Status} (h : combine sts = .done) : ∀ st ∈ sts, st = .done := by
  induction sts with
  | nil => exact fun st h => absurd h List.not_mem_nil
  | cons x l ih =>
    by_cases hx : x = .done
    · subst hx
      rw [combine_done] at h
      intro st hst
      rcases List.mem_cons.1 hst with rfl | hst
      · rfl
      · exact ih h st hst
    · rw [combine_cons _ _ hx] at h
      exact absurd h hx

theorem combine_of_all {sts : List Status} (h : ∀ st ∈ sts, st = .done) : combine sts = .done := by
  induction sts with
  | nil => rfl
  | cons x l ih =>
    rw [h x (by simp), combine_done]
    exact ih (fun st hst => h st (by simp [hst]))

/-- The step `i` is the next one to be run for the builders of a list. -/
def DueL (P : Project) (U : Scope) (subs0 : Nat → List Nat) (free : Ghost) (w : World) (l : List Nat) (i : Nat) : Prop :=
  ∃ a m b, l = a ++ m :: b ∧ (∀ x ∈ a, Whole P U subs0 free w x) ∧ Due P U subs0 free w m i

theorem DueL.cons {w : World} {m i : Nat} {l : List Nat} (h : DueL P U subs0 free w (m :: l) i) :
    Due P U subs0 free w m i ∨ (Whole P U subs0 free w m ∧ DueL P U subs0 free w l i) := by
  obtain ⟨a, x, b, hl, ha, hd⟩ := h
  cases a with
  | nil =>
    simp only [List.nil_append, List.cons.injEq] at hl
    exact .inl (hl.1 ▸ hd)
  | cons y a =>
    simp only [List.cons_append, List.cons.injEq] at hl
    refine .inr ⟨hl.1 ▸ ha y (by simp), a, x, b, hl.2, fun z hz => ha z (by simp [hz]), hd⟩

theorem DueL.on {w w' : World} {i n : Nat} {g : Group} {l : List Nat} (h : DueL P U subs0 free w l i) (hn : P.node n = some (.group g))
    (hl : ∀ m ∈ l, m ∈ subs0 n) (ho : On P U subs0 free w w') :
    DueL P U subs0 free w' l i ∨ Progress P U subs0 free n w w' := by
  obtain ⟨a, x, b, rfl, ha, hd⟩ := h
  rcases hd.on ho with h | h
  · exact .inl ⟨a, x, b, rfl, fun z hz => (ha z hz).on ho, h⟩
  · exact .inr (h.group hn (hl x (by simp)))

theorem DueL.shrunk {w : World} {i : Nat} {l l' : List Nat} (hs : Shrunk P subs0 (Top P U subs0 free w) l l')
    (h : DueL P U subs0 free w l i) : DueL P U subs0 free w l' i := by
  induction hs with
  | nil => exact h
  | keep m l l' _ ih =>
    rcases h.cons with h | ⟨hw, h⟩
    · exact ⟨[], m, l', rfl, fun x hx => absurd hx List.not_mem_nil, h⟩
    · obtain ⟨a, x, b, rfl, ha, hd⟩ := ih h
      refine ⟨m :: a, x, b, rfl, fun y hy => ?_, hd⟩
      rcases List.mem_cons.1 hy with rfl | hy
      · exact hw
      · exact ha y hy
  | drop m l l' hm _ ih =>
    rcases h.cons with h | ⟨_, h⟩
    · exact absurd (hm i h.1.part) h.2.unsettled
    · exact ih h

theorem DueL.full {w : World} {i : Nat} {l l' : List Nat} (hs : Shrunk P subs0 (Top P U subs0 free w) l l')
    (h : DueL P U subs0 free w l' i) : DueL P U subs0 free w l i := by
  induction hs with
  | nil => exact h
  | keep m l l' _ ih =>
    rcases h.cons with h | ⟨hw, h⟩
    · exact ⟨[], m, l, rfl, fun x hx => absurd hx List.not_mem_nil, h⟩
    · obtain ⟨a, x, b, rfl, ha, hd⟩ := ih h
      refine ⟨m :: a, x, b, rfl, fun y hy => ?_, hd⟩
      rcases List.mem_cons.1 hy with rfl | hy
      · exact hw
      · exact ha y hy
  | drop m l l' hm _ ih =>
    obtain ⟨a, x, b, rfl, ha, hd⟩ := ih h
    refine ⟨m :: a, x, b, rfl, fun y hy => ?_, hd⟩
    rcases List.mem_cons.1 hy with rfl | hy
    · exact hm
    · exact ha y hy

theorem DueL.group {w : World} {i n : Nat} {g : Group} (hn : P.node n = some (.group g)) :
    DueL P U subs0 free w (subs0 n) i ↔ Due P U subs0 free w n i := by
  constructor
  · rintro ⟨a, m, b, hl, ha, h1, h2⟩
    exact ⟨.group n i m g a b hn hl ha h1, h2⟩
  · rintro ⟨h1, h2⟩
    cases h1 with
    | step _ s hs => rw [hn] at hs; cases hs
    | group _ _ m g' a b _ hl ha h => exact ⟨a, m, b, hl, ha, h, h2⟩

section
variable {D : Nat → Prop} {O : Ops} (hO : GoodL P U subs0 free D O) (n : Nat) (g : Group) (hn : P.node n = some (.group g))
  (hD : ∀ m ∈ subs0 n, D m)
include hO hn hD

theorem poll_live (m : Nat) (hm : m ∈ subs0 n) (s : State World) (hs : StL P U subs0 free n s) :
    TripL P U subs0 free n (poll (P.subsOf O n g) m) s fun st s' => s'.subs = s.subs ∧ Answer P U subs0 free m s.w s'.w st := by
  obtain ⟨h1, h2, h3⟩ := hO.status m s.w (hD m hm) hs.live
  exact ⟨h1, ⟨h1.live, hs.left.mono h1.more⟩, h2, fun st hst => ⟨rfl, h3 st hst⟩⟩

theorem pollAll_live (l : List Nat) (hl : ∀ m ∈ l, m ∈ subs0 n) (s : State World) (hs : StL P U subs0 free n s) :
    TripL P U subs0 free n (pollAll (P.subsOf O n g) l) s fun sts s' => s'.subs = s.subs ∧
      ((∀ m ∈ l, Whole P U subs0 free s.w m) → combine sts = .done) ∧ (combine sts ≠ .done → s.w.clock < s'.w.clock) ∧
      (combine sts = .done → Cond P subs0 (fun m => ∀ i, Part P subs0 m i → free i) (Top P U subs0 free s.w) l →
        ∀ m ∈ l, Whole P U subs0 free s'.w m) ∧
      (Cond P subs0 (fun _ => False) (Top P U subs0 free s.w) l →
        combine sts = .done ∨ (combine sts = .building ∧ Progress P U subs0 free n s.w s'.w) ∨
        (combine sts = .ready ∧ ((∃ i, DueL P U subs0 free s'.w l i) ∨ Progress P U subs0 free n s.w s'.w)) ∨
        (Stuck (combine sts) ∧ ¬ Fine P s.w)) ∧
      (Cond P subs0 (fun _ => False) (Top P U subs0 free s.w) l → ∀ i, DueL P U subs0 free s.w l i →
        combine sts = .ready ∨ Progress P U subs0 free n s.w s'.w) := by
  induction l generalizing s with
  | nil =>
    refine .pure hs ⟨rfl, fun _ => rfl, fun h => absurd rfl h, fun _ _ m hm => absurd hm (List.not_mem_nil), fun _ => .inl rfl, ?_⟩
    rintro _ i ⟨a, m, b, h, _⟩
    have := congrArg List.length h
    simp at this
  | cons m l ih =>
    unfold pollAll
    have hmn := hl m (by simp)
    have hl' : ∀ x ∈ l, x ∈ subs0 n := fun x hx => hl x (by simp [hx])
    refine (poll_live hO n g hn hD m hmn s hs).bind ?_
    rintro st s1 hs1 ho1 ⟨he1, h1⟩
    refine (ih hl' s1 hs1).bind ?_
    rintro sts s2 hs2 ho2 ⟨he2, hw2, hc2, hd2, hp2, hu2⟩
    refine .pure hs2 ⟨by rw [he2, he1], ?_, ?_, ?_, ?_, ?_⟩
    · intro hw
      rw [h1.whole (hw m (by simp)), combine_done]
      exact hw2 (fun x hx => (hw x (by simp [hx])).on ho1)
    · intro hne
      by_cases hst : st = .done
      · subst hst
        rw [combine_done] at hne
        exact Nat.lt_of_le_of_lt ho1.adv.clock (hc2 hne)
      · exact Nat.lt_of_lt_of_le (h1.clock hst) ho2.adv.clock
    · intro hc hcond x hx
      have hall := combine_all hc
      have hm := h1.done (hall st (by simp)) hcond.head
      rcases List.mem_cons.1 hx with rfl | hx
      · exact hm.on ho2
      · exact hd2 (combine_of_all (fun st hst => hall st (by simp [hst]))) (hcond.tail ho1.more hm) x hx
    · intro hcond
      have hg := hcond.head.resolve_right id
      rcases h1.cases hg with h | ⟨h, h'⟩ | ⟨h, h'⟩ | ⟨h, h'⟩
      · subst h
        rw [combine_done]
        have hwm := h1.done rfl (.inl hg)
        rcases hp2 (hcond.tail ho1.more hwm) with h | ⟨h, h'⟩ | ⟨h, h'⟩ | ⟨h, h'⟩
        · exact .inl h
        · exact .inr (.inl ⟨h, h'.after ho1⟩)
        · refine .inr (.inr (.inl ⟨h, ?_⟩))
          rcases h' with ⟨i, a, x, b, rfl, ha, hd⟩ | h'
          · refine .inl ⟨i, m :: a, x, b, rfl, fun y hy => ?_, hd⟩
            rcases List.mem_cons.1 hy with rfl | hy
            · exact hwm.on ho2
            · exact ha y hy
          · exact .inr (h'.after ho1)
        · exact .inr (.inr (.inr ⟨h, fun hf => h' (ho1.fine hf)⟩))
      · subst h
        rw [combine_cons _ _ (by simp)]
        exact .inr (.inl ⟨rfl, (h'.group hn hmn).on ho1 ho2⟩)
      · subst h
        rw [combine_cons _ _ (by simp)]
        refine .inr (.inr (.inl ⟨rfl, ?_⟩))
        rcases h' with ⟨i, h'⟩ | h'
        · rcases h'.on ho2 with h' | h'
          · exact .inl ⟨i, [], m, l, rfl, fun x hx => absurd hx List.not_mem_nil, h'⟩
          · exact .inr ((h'.group hn hmn).after ho1)
        · exact .inr ((h'.group hn hmn).on ho1 ho2)
      · rw [combine_cons _ _ h.1]
        exact .inr (.inr (.inr ⟨h, h'⟩))
    · intro hcond i hi
      have hg := hcond.head.resolve_right id
      rcases hi.cons with h | ⟨hw, h⟩
      · rcases h1.due hg i h with h | h
        · subst h
          exact .inl (combine_cons _ _ (by simp))
        · exact .inr ((h.group hn hmn).on ho1 ho2)
      · have hst := h1.whole hw
        subst hst
        rw [combine_done]
        rcases h.on hn hl' ho1 with h' | h'
        · exact (hu2 (hcond.tail ho1.more (hw.on ho1)) i h').imp id (fun h => h.after ho1)
        · exact .inr (h'.on ho1 ho2)

theorem getSubs_live (s : State World) (hs : StL P U subs0 free n s) :
    TripL P U subs0 free n (getSubs (W := World)) s fun l s' => l = s.subs ∧ s' = s :=
  ⟨.refl hs.live, hs, fun e h => (by cases h), fun l h => by
    refine ⟨?_, rfl⟩
    have : (Except.ok s.subs : Except Builder.Err _) = .ok l := h
    injection this with this
    exact this.symm⟩

theorem compStatus_live (s : State World) (hs : StL P U subs0 free n s) :
    TripL P U subs0 free n (compStatus (P.subsOf O n g)) s fun st s' => s'.subs = s.subs ∧
      ((∀ m ∈ subs0 n, Whole P U subs0 free s.w m) → st = .done) ∧ (st ≠ .done → s.w.clock < s'.w.clock) ∧
      (st = .done → Cond P subs0 (fun m => ∀ i, Part P subs0 m i → free i) (Top P U subs0 free s.w) (subs0 n) →
        ∀ m ∈ subs0 n, Whole P U subs0 free s'.w m) ∧
      (Cond P subs0 (fun _ => False) (Top P U subs0 free s.w) (subs0 n) →
        st = .done ∨ (st = .building ∧ Progress P U subs0 free n s.w s'.w) ∨
        (st = .ready ∧ ((∃ i, Due P U subs0 free s'.w n i) ∨ Progress P U subs0 free n s.w s'.w)) ∨ (Stuck st ∧ ¬ Fine P s.w)) ∧
      (Cond P subs0 (fun _ => False) (Top P U subs0 free s.w) (subs0 n) → ∀ i, Due P U subs0 free s.w n i →
        st = .ready ∨ Progress P U subs0 free n s.w s'.w) := by
  unfold compStatus
  refine (getSubs_live hO n g hn hD s hs).bind ?_
  rintro l s1 hs1 _ ⟨rfl, rfl⟩
  refine (pollAll_live hO n g hn hD s1.subs hs1.left.mem s1 hs1).bind ?_
  rintro sts s2 hs2 ho2 ⟨he2, hw2, hc2, hd2, hp2, hu2⟩
  refine .pure hs2 ⟨he2, ?_, hc2, ?_, ?_, ?_⟩
  · exact fun hw => hw2 (fun m hm => hw m (hs1.left.mem m hm))
  · intro hd hc m hm i hi
    rcases hs1.left.part m i hm hi with h | h
    · exact ho2.more i h
    · exact hd2 hd (Cond.shrunk hs1.left _ (fun _ h => h) hc) m h i hi
  · intro hc
    rcases hp2 (Cond.shrunk hs1.left _ (fun _ h => h) hc) with h | h | ⟨h, h'⟩ | h
    · exact .inl h
    · exact .inr (.inl h)
    · refine .inr (.inr (.inl ⟨h, ?_⟩))
      rcases h' with ⟨i, h'⟩ | h'
      · refine .inl ⟨i, (DueL.group hn).1 (h'.full (l := subs0 n) ?_)⟩
        exact hs1.left.mono ho2.more
      · exact .inr h'
    · exact .inr (.inr (.inr h))
  · intro hc i hi
    exact hu2 (Cond.shrunk hs1.left _ (fun _ h => h) hc) i (((DueL.group hn).2 hi).shrunk hs1.left)

theorem buildSub_live (m : Nat) (hm : m ∈ subs0 n) (s : State World) (hs : StL P U subs0 free n s)
    (hg : Guarded P subs0 (Top P U subs0 free s.w) m) :
    TripL P U subs0 free n (buildSub (P.subsOf O n g) m) s fun _ s' => s'.subs = s.subs ∧
      (∀ i, Due P U subs0 free s.w m i → Progress P U subs0 free n s.w s'.w) := by
  obtain ⟨h1, h2, h3⟩ := hO.build m s.w (hD m hm) hs.live hg
  exact ⟨h1, ⟨h1.live, hs.left.mono h1.more⟩, h2, fun _ hok => ⟨rfl, fun i hi => (h3 i hi hok).group hn hm⟩⟩

theorem runOnce_live (par : Bool) (l : List Nat) (hl : ∀ m ∈ l, m ∈ subs0 n) (s : State World) (hs : StL P U subs0 free n s)
    (hc : if par then ∀ m ∈ l, Guarded P subs0 (Top P U subs0 free s.w) m else Cond P subs0 (fun _ => False) (Top P U subs0 free s.w) l) :
    TripL P U subs0 free n (runOnce (P.subsOf O n g) par l) s fun _ s' =>
      ∀ i, DueL P U subs0 free s.w l i → Progress P U subs0 free n s.w s'.w := by
  induction l generalizing s with
  | nil =>
    refine .pure hs ?_
    rintro i ⟨a, m, b, h, _⟩
    have := congrArg List.length h
    simp at this
  | cons m l ih =>
    unfold runOnce
    have hm := hl m (by simp)
    have hl' : ∀ x ∈ l, x ∈ subs0 n := fun x hx => hl x (by simp [hx])
    have hgm : Guarded P subs0 (Top P U subs0 free s.w) m := by
      cases par with
      | true => rw [if_pos rfl] at hc; exact hc m (by simp)
      | false =>
        rw [if_neg (by simp)] at hc
        exact hc.head.resolve_right id
    refine (poll_live hO n g hn hD m hm s hs).bind ?_
    rintro st s1 hs1 ho1 ⟨he1, h1⟩
    have hpar : ∀ s2 : State World, On P U subs0 free s.w s2.w → par = true →
        (if par then ∀ m ∈ l, Guarded P subs0 (Top P U subs0 free s2.w) m else Cond P subs0 (fun _ => False) (Top P U subs0 free s2.w) l) := by
      intro s2 ho hp
      rw [if_pos hp] at hc ⊢
      exact fun x hx => (hc x (by simp [hx])).mono ho.more
    -- the step that is due is one of `m`, or `m` is finished
    have hno : st ≠ .ready → st ≠ .done → ∀ i, DueL P U subs0 free s.w (m :: l) i → Progress P U subs0 free n s.w s1.w := by
      intro hr hd i hi
      rcases hi.cons with h | ⟨hw, _⟩
      · exact ((h1.due hgm i h).resolve_left hr).group hn hm
      · exact absurd (h1.whole hw) hd
    cases st with
    | done =>
      have hwm := h1.done rfl (.inl hgm)
      refine (ih hl' s1 hs1 ?_).weaken ?_
      · cases hp : par with
        | true => subst hp; exact hpar s1 ho1 rfl
        | false =>
          subst hp
          rw [if_neg (by simp)] at hc ⊢
          exact hc.tail ho1.more hwm
      · intro _ s2 ho2 h i hi
        rcases hi.cons with h' | ⟨hw, h'⟩
        · exact ((h1.due hgm i h').resolve_left (by simp)).group hn hm |>.on ho1 ho2
        · rcases h'.on hn hl' ho1 with h' | h'
          · exact (h i h').after ho1
          · exact h'.on ho1 ho2
    | building =>
      simp only
      split
      · rename_i hp
        refine (ih hl' s1 hs1 (hpar s1 ho1 hp)).weaken ?_
        exact fun _ s2 ho2 _ i hi => (hno (by simp) (by simp) i hi).on ho1 ho2
      · exact .pure hs1 (hno (by simp) (by simp))
    | ready =>
      simp only
      refine (buildSub_live hO n g hn hD m hm s1 hs1 (hgm.mono ho1.more)).bind ?_
      rintro _ s2 hs2 ho2 ⟨_, hb⟩
      have hpr : ∀ i, DueL P U subs0 free s.w (m :: l) i → Progress P U subs0 free n s.w s2.w := by
        intro i hi
        rcases hi.cons with h | ⟨hw, _⟩
        · rcases h.on ho1 with h' | h'
          · exact (hb i h').after ho1
          · exact (h'.group hn hm).on ho1 ho2
        · exact absurd (h1.whole hw) (by simp)
      split
      · rename_i hp
        refine (ih hl' s2 hs2 (hpar s2 (ho1.trans ho2) hp)).weaken ?_
        exact fun _ s3 ho3 _ i hi => (hpr i hi).on (ho1.trans ho2) ho3
      · exact .pure hs2 hpr
    | missingParameters => exact .pure hs1 (hno (by simp) (by simp))
    | missingOutfile => exact .pure hs1 (hno (by simp) (by simp))
    | cancelled => exact .pure hs1 (hno (by simp) (by simp))

theorem clearDone_live (l : List Nat) (hl : ∀ m ∈ l, m ∈ subs0 n) (s : State World) (hs : StL P U subs0 free n s)
    (hc : ∀ m ∈ l, Guarded P subs0 (Top P U subs0 free s.w) m ∨ ∀ i, Part P subs0 m i → free i) :
    TripL P U subs0 free n (clearDone (P.subsOf O n g) l) s fun _ _ => True := by
  induction l generalizing s with
  | nil => exact .pure hs trivial
  | cons m l ih =>
    unfold clearDone
    have hl' : ∀ x ∈ l, x ∈ subs0 n := fun x hx => hl x (by simp [hx])
    refine (poll_live hO n g hn hD m (hl m (by simp)) s hs).bind ?_
    rintro st s1 hs1 ho1 ⟨he1, h1⟩
    have hc1 : ∀ x ∈ l, Guarded P subs0 (Top P U subs0 free s1.w) x ∨ ∀ i, Part P subs0 x i → free i := by
      intro x hx
      rcases hc x (by simp [hx]) with h | h
      · exact .inl (h.mono ho1.more)
      · exact .inr h
    split
    · rename_i hst
      have hr : TripL P U subs0 free n (remove (W := World) m) s1 fun _ s' => s'.w = s1.w :=
        ⟨.refl hs1.live, ⟨hs1.live, hs1.left.erase m (h1.done hst (hc m (by simp)))⟩, fun e h => (by cases h), fun _ _ => rfl⟩
      refine hr.bind ?_
      rintro _ s2 hs2 _ he
      exact ih hl' s2 hs2 (by rw [he]; exact hc1)
    · refine TripL.bind (x := (pure PUnit.unit : M World PUnit)) (f := fun _ => clearDone (P.subsOf O n g) l)
        (Q := fun _ s' => s' = s1) (.pure hs1 rfl) ?_
      rintro _ s2 hs2 _ rfl
      exact ih hl' s2 hs2 hc1

theorem anyRecord_live (l : List Nat) (hl : ∀ m ∈ l, m ∈ subs0 n) (w : World) (h : Live P U subs0 free w)
    (hp : ∀ m ∈ l, Whole P U subs0 free w m) : ∃ b, (anyRecord O l w).1 = .ok b ∧ On P U subs0 free w (anyRecord O l w).2 := by
  induction l generalizing w with
  | nil => exact ⟨false, rfl, .refl h⟩
  | cons m l ih =>
    unfold anyRecord
    obtain ⟨b, h1, h2⟩ := hO.record m w (hD m (hl m (by simp))) h (hp m (by simp))
    generalize O.record m w = q at h1 h2 ⊢
    obtain ⟨r, w1⟩ := q
    simp only at h1
    subst h1
    cases b with
    | true => exact ⟨true, rfl, h2⟩
    | false =>
      obtain ⟨b, h3, h4⟩ := ih (fun x hx => hl x (by simp [hx])) w1 h2.live (fun x hx => (hp x (by simp [hx])).on h2)
      exact ⟨b, h3, h2.trans h4⟩

theorem groupRecord_live (hs : Sound P U) (w : World) (h : Live P U subs0 free w)
    (hp : ∀ m ∈ subs0 n, Whole P U subs0 free w m) :
    ∃ b, (P.groupRecord O n g w).1 = .ok b ∧ On P U subs0 free w (P.groupRecord O n g w).2 := by
  unfold Project.groupRecord
  by_cases hpar : g.parallel = true
  · rw [if_pos hpar]
    exact anyRecord_live hO n g hn hD (w.subs n) (Inv.left h n).mem w h (fun m hm => hp m ((Inv.left h n).mem m hm))
  · rw [if_neg hpar]
    have hpar' : g.parallel = false := by simpa using hpar
    unfold Cfg.buildNeeded
    cases hf : filesMissing w.fs g.inputs g.output with
    | none =>
      unfold filesMissing at hf
      rw [if_neg (hs.decided n g hn hpar')] at hf
      split at hf
      · cases hf
      · split at hf <;> cases hf
    | some b =>
      cases b with
      | true => exact ⟨true, rfl, .refl h⟩
      | false =>
        simp only
        obtain ⟨k, o, hh⟩ := digests_exist P.cfg w.fs g.inputs g.output hf
        rw [hh]
        have hk := ((calculateHash_iff _ _ _ _ _ _).1 hh).1
        refine ⟨false, rfl, ?_⟩
        exact (Live.on ⟨fun _ h => h, Inv.groupRecord h hs
          (fun s fs hU hF => hs.groups n g hn hpar' s w.fs fs k hU (Inv.files h) hF hk), fun _ _ => rfl⟩
          (adv_rel.db w _) (fine_rel.db w _)).1

theorem record_live (hs : Sound P U) (s : State World) (hst : StL P U subs0 free n s)
    (hp : ∀ m ∈ subs0 n, Whole P U subs0 free s.w m) :
    TripL P U subs0 free n (Builder.record (P.subsOf O n g)) s fun _ _ => True := by
  obtain ⟨b, h1, h2⟩ := groupRecord_live hO n g hn hD hs s.w hst.live hp
  have : (Builder.record (P.subsOf O n g) s) = (.ok (), { s with w := (P.groupRecord O n g s.w).2 }, []) := by
    show (((P.subsOf O n g).record s.w).1, ({ s with w := ((P.subsOf O n g).record s.w).2 } : State World), _) = _
    unfold Project.subsOf
    simp only
    generalize P.groupRecord O n g s.w = q at h1 ⊢
    obtain ⟨r, w1⟩ := q
    simp only at h1
    subst h1
    rfl
  unfold TripL
  rw [this]
  exact ⟨h2, ⟨h2.live, hst.left.mono h2.more⟩, fun e h => (by cases h), fun _ _ => trivial⟩

theorem finish_live (hs : Sound P U) (clear : Bool) (s : State World)
    (hst : StL P U subs0 free n s) (hc : Cond P subs0 (fun _ => False) (Top P U subs0 free s.w) (subs0 n))
    (hcl : clear = true → ∀ m ∈ subs0 n, Guarded P subs0 (Top P U subs0 free s.w) m ∨ ∀ i, Part P subs0 m i → free i) :
    TripL P U subs0 free n (finish (P.subsOf O n g) clear) s fun _ _ => True := by
  have hc' : Cond P subs0 (fun m => ∀ i, Part P subs0 m i → free i) (Top P U subs0 free s.w) (subs0 n) :=
    fun a m b h => .inl ((hc a m b h).resolve_right id)
  have tail : ∀ (st : Status) (s1 : State World), StL P U subs0 free n s1 → On P U subs0 free s.w s1.w →
      TripL P U subs0 free n (do
        if clear then
          let subs ← getSubs
          clearDone (P.subsOf O n g) subs
        pure st) s1 fun _ _ => True := by
    intro st s1 hs1 ho1
    cases clear with
    | false =>
      simp only [Bool.false_eq_true, if_false]
      exact TripL.bind (x := (pure PUnit.unit : M World PUnit)) (f := fun _ => (pure st : M World Status)) (Q := fun _ _ => True)
        (.pure hs1 trivial) (fun _ s2 hs2 _ _ => .pure hs2 trivial)
    | true =>
      simp only [if_true]
      refine (getSubs_live hO n g hn hD s1 hs1).bind ?_
      rintro l s2 hs2 _ ⟨rfl, rfl⟩
      refine (clearDone_live hO n g hn hD s2.subs hs2.left.mem s2 hs2 ?_).bind (fun _ s3 hs3 _ _ => .pure hs3 trivial)
      intro m hm
      rcases hcl rfl m (hs2.left.mem m hm) with h | h
      · exact .inl (h.mono ho1.more)
      · exact .inr h
  unfold finish
  refine (compStatus_live hO n g hn hD s hst).bind ?_
  rintro st s1 hs1 ho1 ⟨_, _, _, hd1, _⟩
  by_cases hd : st = .done
  · rw [if_pos hd]
    refine (record_live hO n g hn hD hs s1 hs1 (hd1 hd hc')).bind ?_
    rintro _ s2 hs2 ho2 _
    exact tail st s2 hs2 (ho1.trans ho2)
  · rw [if_neg hd]
    exact tail st s1 hs1 ho1

theorem build_live (hs : Sound P U) (s : State World) (hst : StL P U subs0 free n s)
    (hg : if g.parallel then ∀ m ∈ subs0 n, Guarded P subs0 (Top P U subs0 free s.w) m
      else Cond P subs0 (fun _ => False) (Top P U subs0 free s.w) (subs0 n))
    (hcl : g.clear = true → ∀ m ∈ subs0 n, Guarded P subs0 (Top P U subs0 free s.w) m ∨ ∀ i, Part P subs0 m i → free i) :
    TripL P U subs0 free n (Builder.build (P.subsOf O n g) g.parallel g.clear) s fun _ s' =>
      ∀ i, Due P U subs0 free s.w n i → Progress P U subs0 free n s.w s'.w := by
  have hc : Cond P subs0 (fun _ => False) (Top P U subs0 free s.w) (subs0 n) := by
    split at hg
    · exact Cond.all (fun m hm => .inl (hg m hm))
    · exact hg
  have tail : ∀ s1 : State World, StL P U subs0 free n s1 → On P U subs0 free s.w s1.w →
      (∀ i, Due P U subs0 free s.w n i → Progress P U subs0 free n s.w s1.w) →
      TripL P U subs0 free n (finish (P.subsOf O n g) g.clear) s1 fun _ s' =>
        ∀ i, Due P U subs0 free s.w n i → Progress P U subs0 free n s.w s'.w := by
    intro s1 hs1 ho1 hp
    refine (finish_live hO n g hn hD hs g.clear s1 hs1 (hc.mono ho1.more) (fun h m hm => ?_)).weaken ?_
    · rcases hcl h m hm with h | h
      · exact .inl (h.mono ho1.more)
      · exact .inr h
    · intro _ s2 ho2 _ i hi
      exact (hp i hi).on ho1 ho2
  unfold Builder.build
  refine (compStatus_live hO n g hn hD s hst).bind ?_
  rintro st s1 hs1 ho1 ⟨_, _, _, _, _, hu1⟩
  by_cases hb : st = .building ∨ st = .ready
  · rw [if_pos hb]
    refine (getSubs_live hO n g hn hD s1 hs1).bind ?_
    rintro l s2 hs2 _ ⟨rfl, rfl⟩
    refine (runOnce_live hO n g hn hD g.parallel s2.subs hs2.left.mem s2 hs2 ?_).bind ?_
    · split at hg
      · rename_i hp
        rw [if_pos hp]
        exact fun m hm => (hg m (hs2.left.mem m hm)).mono ho1.more
      · rename_i hp
        rw [if_neg hp]
        exact Cond.shrunk hs2.left _ (fun _ h => h) (hg.mono ho1.more)
    · intro _ s3 hs3 ho3 hp3
      refine tail s3 hs3 (ho1.trans ho3) (fun i hi => ?_)
      rcases hi.on ho1 with h | h
      · exact (hp3 i (((DueL.group hn).2 h).shrunk hs2.left)).after ho1
      · exact h.on ho1 ho3
  · rw [if_neg hb]
    exact tail s1 hs1 ho1 (fun i hi => (hu1 hc i hi).resolve_left (fun h => hb (.inr h)))

end

theorem Live.setSubs {w : World} (h : Live P U subs0 free w) (n : Nat) (l : List Nat) (hl : Shrunk P subs0 (Top P U subs0 free w) (subs0 n) l) :
    On P U subs0 free w { w with subs := put w.subs n l } :=
  (Live.on ⟨fun _ h => h, Inv.setSubs h n l hl, fun _ _ => rfl⟩ (adv_rel.subs w _) (fine_rel.subs w _)).1

theorem onSubs_live {α : Type} {n : Nat} {x : M World α} {Q : α → State World → Prop} {w : World}
    (h : TripL P U subs0 free n x ⟨w.subs n, w⟩ Q) :
    ∃ s', On P U subs0 free w s'.w ∧ On P U subs0 free s'.w (onSubs n x w).2 ∧ (onSubs n x w).2.clock = s'.w.clock ∧
      (∀ e, (onSubs n x w).1 = .error e → ¬ Fine P w) ∧ ∀ a, (onSubs n x w).1 = .ok a → Q a s' := by
  obtain ⟨h1, h2, h3, h4⟩ := h
  exact ⟨_, h1, h2.live.setSubs n _ h2.left, rfl, h3, h4⟩

theorem guarded_cond {n : Nat} {g : Group} {Q : Nat → Prop} (hn : P.node n = some (.group g)) (hg : Guarded P subs0 Q n) :
    Cond P subs0 (fun _ => False) Q (subs0 n) := by
  have := guarded_group hn hg
  split at this
  · exact Cond.all (fun m hm => .inl (this m hm))
  · exact this

theorem ops_live (hF : Fit P U)
    (hcl : ∀ n g, P.node n = some (.group g) → g.clear = true → g.parallel = false → ∀ a m b, subs0 n = a ++ m :: b → a ≠ [] →
      ∀ i, Part P subs0 m i → free i) (k : Nat) : GoodL P U subs0 free (Deep P subs0 k) (P.ops k) := by
  induction k with
  | zero => exact ⟨fun n w h => (by cases h), fun n w h => (by cases h), fun n w h => (by cases h)⟩
  | succ k ih =>
    have hwhole : ∀ {n g w}, P.node n = some (.group g) → (∀ m ∈ subs0 n, Whole P U subs0 free w m) → Whole P U subs0 free w n := by
      intro n g w hn h i hi
      obtain ⟨m, hm, hi⟩ := part_group hn hi
      exact h m hm i hi
    have hwhole' : ∀ {n g w}, P.node n = some (.group g) → Whole P U subs0 free w n → ∀ m ∈ subs0 n, Whole P U subs0 free w m :=
      fun hn h m hm i hi => h i (.group _ m i _ hn hm hi)
    refine ⟨?_, ?_, ?_⟩
    · intro n w hd h
      simp only [Project.ops]
      cases hd with
      | step _ _ s hn =>
        rw [hn]
        simp only
        have hpart : Part P subs0 n n := .step n s hn
        obtain ⟨h1, h2⟩ := h.stepStatus hF hn
        obtain ⟨hon, hdone⟩ := h.stepOn hF.sound hn
        refine ⟨hon, h1, fun st hst => ?_⟩
        obtain ⟨h3, h4, h5, h6⟩ := h2 st hst
        have hdone' : st = .done → (Guarded P subs0 (Top P U subs0 free w) n ∨ ∀ i, Part P subs0 n i → free i) →
            Top P U subs0 free (P.stepStatus n s w).2 n := by
          intro hd hg
          refine hdone (by rw [hst, hd]) ?_
          rcases hg with hg | hg
          · exact .inl (guarded_step hn hg)
          · exact .inr (hg n hpart)
        refine ⟨fun hw => h4 (hw n hpart), fun _ => h3, fun hd hg i hi => by rw [part_step hn hi]; exact hdone' hd hg, ?_, ?_⟩
        · intro hg
          rcases h5 (guarded_step hn hg) with h | ⟨h, h'⟩ | ⟨h, h'⟩ | h
          · exact .inl h
          · exact .inr (.inl ⟨h, n, hpart, .inl h'⟩)
          · exact .inr (.inr (.inl ⟨h, .inl ⟨n, .step n s hn, h'⟩⟩))
          · exact .inr (.inr (.inr h))
        · intro hg i hi
          obtain rfl := part_step hn hi.1.part
          rcases h6 hi.2 with h | h
          · exact .inr (Progress.settled hon hpart hi.2.unsettled (hdone' h (.inl hg)))
          · exact .inl h
      | group _ _ g hn hm =>
        rw [hn]
        simp only
        obtain ⟨s', h2, h3, h4, he, hq⟩ := onSubs_live (compStatus_live ih n g hn hm ⟨w.subs n, w⟩ ⟨h, Inv.left h n⟩)
        refine ⟨h2.trans h3, he, fun st hst => ?_⟩
        obtain ⟨_, h5, h6, h7, h8, h9⟩ := hq st hst
        refine ⟨fun hw => h5 (hwhole' hn hw), fun hst => by rw [h4]; exact h6 hst, ?_, ?_, ?_⟩
        · intro hst hg
          refine (hwhole hn (h7 hst ?_)).on h3
          rcases hg with hg | hg
          · exact fun a m b hl => .inl ((guarded_cond hn hg a m b hl).resolve_right id)
          · refine Cond.all (fun m hm => .inr ?_)
            exact fun i hi => hg i (.group n m i g hn hm hi)
        · intro hg
          rcases h8 (guarded_cond hn hg) with h | ⟨h, h'⟩ | ⟨h, h'⟩ | h
          · exact .inl h
          · exact .inr (.inl ⟨h, h'.on h2 h3⟩)
          · refine .inr (.inr (.inl ⟨h, ?_⟩))
            rcases h' with ⟨i, h'⟩ | h'
            · rcases h'.on h3 with h' | h'
              · exact .inl ⟨i, h'⟩
              · exact .inr (h'.after h2)
            · exact .inr (h'.on h2 h3)
          · exact .inr (.inr (.inr h))
        · intro hg i hi
          exact (h9 (guarded_cond hn hg) i hi).imp id (fun h => h.on h2 h3)
    · intro n w hd h hg
      simp only [Project.ops]
      cases hd with
      | step _ _ s hn =>
        rw [hn]
        simp only
        obtain ⟨h1, h2, h3⟩ := h.stepBuild hF hn (guarded_step hn hg)
        refine ⟨h1, h2, fun i hi hok => ?_⟩
        obtain rfl := part_step hn hi.1.part
        exact h3 hi.2 hok
      | group _ _ g hn hm =>
        rw [hn]
        simp only
        have hgg := guarded_group hn hg
        have hb := build_live ih n g hn hm hF.sound ⟨w.subs n, w⟩ ⟨h, Inv.left h n⟩ hgg (by
          intro hc m hm
          split at hgg
          · exact .inl (hgg m hm)
          · rename_i hp
            obtain ⟨a, b, hl⟩ := List.append_of_mem hm
            cases a with
            | nil =>
              refine .inl ?_
              exact (Cond.head (hl ▸ hgg)).resolve_right id
            | cons x a => exact .inr (hcl n g hn hc (by simpa using hp) _ m b hl (by simp)))
        obtain ⟨s', h2, h3, _, he, h5⟩ := onSubs_live hb
        generalize onSubs n (Builder.build (P.subsOf (P.ops k) n g) g.parallel g.clear) w = q at h3 he h5 ⊢
        obtain ⟨r, w1⟩ := q
        cases r with
        | error e => exact ⟨h2.trans h3, fun e' _ => he e rfl, fun i _ hok => by cases hok⟩
        | ok st => exact ⟨h2.trans h3, fun e' h => (by cases h), fun i hi _ => (h5 st rfl i hi).on h2 h3⟩
    · intro n w hd h hp
      simp only [Project.ops]
      cases hd with
      | step _ _ s hn =>
        rw [hn]
        simp only
        obtain ⟨t, h1, ⟨k', o, hd, hg⟩, _⟩ := Inv.settled h n (hp n (.step n s hn))
        rw [hn] at h1
        injection h1 with h1; injection h1 with h1; subst h1
        unfold Project.stepRecord
        rw [record_eq _ _ _ _ hd]
        have hk := hF.sound.known _ _ hn
        exact ⟨false, rfl, (Live.on ⟨fun _ h => h, Inv.record hF.sound h hk hd (Inv.truth h s w.fs k' o hk (Inv.files h) hd hg), fun _ _ => rfl⟩
          (adv_rel.db w _) (fine_rel.db w _)).1⟩
      | group _ _ g hn hm =>
        rw [hn]
        exact groupRecord_live ih n g hn hm hF.sound w h (hwhole' hn hp)

/-! ### The loop -/

theorem Part.node {n i : Nat} (h : Part P subs0 n i) : ∃ s, P.node i = some (.step s) := by
  induction h with
  | step n s hn => exact ⟨s, hn⟩
  | group _ _ _ _ _ _ _ ih => exact ih

theorem Part.self {n i : Nat} (h : Part P subs0 n i) : Part P subs0 i i := by
  obtain ⟨s, hn⟩ := h.node
  exact .step i s hn

theorem Deep.parts {k n : Nat} (h : Deep P subs0 k n) : ∃ L : List Nat, ∀ i, Part P subs0 n i → i ∈ L := by
  induction h with
  | step k n s hn => exact ⟨[n], fun i hi => by rw [part_step hn hi]; simp⟩
  | group k n g hn _ ih =>
    have : ∀ l : List Nat, (∀ m ∈ l, m ∈ subs0 n) → ∃ L : List Nat, ∀ m ∈ l, ∀ i, Part P subs0 m i → i ∈ L := by
      intro l
      induction l with
      | nil => exact fun _ => ⟨[], fun m hm => absurd hm List.not_mem_nil⟩
      | cons m l ihl =>
        intro hl
        obtain ⟨L1, h1⟩ := ih m (hl m (by simp))
        obtain ⟨L2, h2⟩ := ihl (fun x hx => hl x (by simp [hx]))
        refine ⟨L1 ++ L2, fun x hx i hi => ?_⟩
        rcases List.mem_cons.1 hx with rfl | hx
        · exact List.mem_append_left _ (h1 i hi)
        · exact List.mem_append_right _ (h2 x hx i hi)
    obtain ⟨L, hL⟩ := this (subs0 n) (fun _ h => h)
    refine ⟨L, fun i hi => ?_⟩
    obtain ⟨m, hm, hi⟩ := part_group hn hi
    exact hL m hm i hi

theorem sum_le {L : List Nat} {f f' : Nat → Nat} (h : ∀ i, f' i ≤ f i) : (L.map f').sum ≤ (L.map f).sum := by
  induction L with
  | nil => exact Nat.le_refl _
  | cons i L ih => simp only [List.map_cons, List.sum_cons]; have := h i; omega

theorem sum_lt {L : List Nat} {f f' : Nat → Nat} (h : ∀ i, f' i ≤ f i) {i : Nat} (hi : i ∈ L) (hlt : f' i < f i) :
    (L.map f').sum < (L.map f).sum := by
  induction L with
  | nil => exact absurd hi List.not_mem_nil
  | cons j L ih =>
    simp only [List.map_cons, List.sum_cons]
    rcases List.mem_cons.1 hi with rfl | hi
    · have := sum_le (L := L) h; omega
    · have := ih hi; have := h j; omega

/-- The build ends, with 'done' if all goes well. -/
def Over (P : Project) (k root : Nat) (w : World) : Prop :=
  ∃ r x, (P.build k root r w).1 = some x ∧ (Fine P w → x = .ok .done)

section
variable (hF : Fit P U)
  (hcl : ∀ n g, P.node n = some (.group g) → g.clear = true → g.parallel = false → ∀ a m b, subs0 n = a ++ m :: b → a ≠ [] →
    ∀ i, Part P subs0 m i → free i) {k root : Nat} (hd : Deep P subs0 k root)
include hF hcl hd

theorem round {w : World} (h : Live P U subs0 free w) (hg : Guarded P subs0 (Top P U subs0 free w) root) :
    Over P k root w ∨ ∃ w', On P U subs0 free w w' ∧ w.clock < w'.clock ∧
      (∀ r, (P.build k root (r + 1) w).1 = (P.build k root r w').1) ∧ Progress P U subs0 free root w w' := by
  have hO := ops_live (free := free) hF hcl k
  obtain ⟨h1, h2, h3⟩ := hO.status root w hd h
  cases hst : ((P.ops k).status root w).1 with
  | error e =>
    refine .inl ⟨1, .error e, ?_, fun hf => absurd hf (h2 e hst)⟩
    unfold Project.build
    generalize (P.ops k).status root w = q at hst ⊢
    obtain ⟨r, w1⟩ := q
    simp only at hst
    subst hst
    rfl
  | ok st =>
    have ha := h3 st hst
    by_cases hb : st = .building ∨ st = .ready
    · obtain ⟨h4, h5, h6⟩ := hO.build root _ hd h1.live (hg.mono h1.more)
      have hc := ha.clock (by rcases hb with h | h <;> rw [h] <;> simp)
      have hbuild : ∀ r, P.build k root (r + 1) w = match (P.ops k).build root ((P.ops k).status root w).2 with
          | (.error e, w) => (some (.error e), w)
          | (.ok _, w) => P.build k root r w := by
        intro r
        conv => lhs; unfold Project.build
        generalize (P.ops k).status root w = q at hst ⊢
        obtain ⟨x, w1⟩ := q
        simp only at hst
        subst hst
        simp only
        rw [if_pos hb]
        rfl
      cases hx : ((P.ops k).build root ((P.ops k).status root w).2).1 with
      | error e =>
        refine .inl ⟨1, .error e, ?_, fun hf => absurd (h1.fine hf) (h5 e hx)⟩
        rw [hbuild 0]
        generalize (P.ops k).build root ((P.ops k).status root w).2 = q at hx ⊢
        obtain ⟨r, w1⟩ := q
        simp only at hx
        subst hx
        rfl
      | ok u =>
        refine .inr ⟨_, h1.trans h4, Nat.lt_of_lt_of_le hc h4.adv.clock, ?_, ?_⟩
        · intro r
          rw [hbuild r]
          generalize (P.ops k).build root ((P.ops k).status root w).2 = q at hx ⊢
          obtain ⟨x, w1⟩ := q
          simp only at hx
          subst hx
          rfl
        · rcases ha.cases hg with h | ⟨_, h⟩ | ⟨_, ⟨i, h⟩ | h⟩ | ⟨h, _⟩
          · rcases hb with h' | h' <;> rw [h] at h' <;> cases h'
          · exact h.on h1 h4
          · exact (h6 i h hx).after h1
          · exact h.on h1 h4
          · rcases hb with h' | h'
            · exact absurd h' h.2.1
            · exact absurd h' h.2.2
    · refine .inl ?_
      obtain ⟨h4, h5, h6⟩ := hO.status root _ hd h1.live
      have hbuild : P.build k root 1 w = match (P.ops k).status root ((P.ops k).status root w).2 with
          | (.error e, w) => (some (.error e), w)
          | (.ok st, w) => (some (.ok st), w) := by
        conv => lhs; unfold Project.build
        generalize (P.ops k).status root w = q at hst ⊢
        obtain ⟨x, w1⟩ := q
        simp only at hst
        subst hst
        simp only
        rw [if_neg hb]
        rfl
      refine ⟨1, ((P.ops k).status root ((P.ops k).status root w).2).1, ?_, ?_⟩
      · rw [hbuild]
        generalize (P.ops k).status root ((P.ops k).status root w).2 = q
        obtain ⟨x, w1⟩ := q
        cases x <;> rfl
      · intro hf
        rcases ha.cases hg with h | ⟨h, _⟩ | ⟨h, _⟩ | ⟨_, h⟩
        · have hw := ha.done h (.inl hg)
          cases hy : ((P.ops k).status root ((P.ops k).status root w).2).1 with
          | error e => exact absurd (h1.fine hf) (h5 e hy)
          | ok st2 => rw [(h6 st2 hy).whole hw]
        · exact absurd (.inl h) hb
        · exact absurd (.inr h) hb
        · exact absurd hf h

theorem over (hE : Ending P) {w : World} (h : Live P U subs0 free w) (hg : Guarded P subs0 (Top P U subs0 free w) root) :
    Over P k root w := by
  obtain ⟨L, hL⟩ := hd.parts
  have hback : ∀ {w w' : World}, On P U subs0 free w w' → (∀ r, (P.build k root (r + 1) w).1 = (P.build k root r w').1) →
      Over P k root w' → Over P k root w := by
    rintro w w' ho hb ⟨r, x, h1, h2⟩
    exact ⟨r + 1, x, (hb r).trans h1, fun hf => h2 (ho.fine hf)⟩
  have hout : ∀ N (w : World), (L.map (toDo P U subs0 free w)).sum < N → Live P U subs0 free w →
      Guarded P subs0 (Top P U subs0 free w) root → Over P k root w := by
    intro N
    induction N with
    | zero => exact fun w h => absurd h (by omega)
    | succ N ihN =>
      -- while a command runs
      have hin : ∀ d (w : World) (i t : Nat) (f : Future), Part P subs0 root i → (w.leaf i).future = some .running → w.clock ≤ t →
          t < w.clock + d → f ≠ .running → (i, f) ∈ P.ends t → (L.map (toDo P U subs0 free w)).sum < N + 1 → Live P U subs0 free w →
          Guarded P subs0 (Top P U subs0 free w) root → Over P k root w := by
        intro d
        induction d with
        | zero => exact fun w i t f _ _ h1 h2 => absurd h1 (by omega)
        | succ d ihd =>
          intro w i t f hi hr h1 h2 hf ht hN h hg
          rcases round hF hcl hd h hg with hr' | ⟨w', ho, hc, hb, _⟩
          · exact hr'
          · refine hback ho hb ?_
            by_cases hr2 : (w'.leaf i).future = some .running
            · obtain ⟨s, hn⟩ := hi.node
              have hst : ¬ t < w'.clock := fun h3 => ho.adv.still i s hn hr hr2 t h1 h3 f hf ht
              exact ihd w' i t f hi hr2 (by omega) (by omega) hf ht
                (Nat.lt_of_le_of_lt (sum_le ho.toDo) hN) ho.live (hg.mono ho.more)
            · have hp : Progress P U subs0 free i w w := ⟨i, hi.self, .inl hr⟩
              obtain ⟨j, hj, hq⟩ := hp.on (.refl h) ho
              obtain ⟨s, hn⟩ := hi.node
              have := part_step hn hj
              subst this
              rcases hq with hq | hq
              · exact absurd hq hr2
              · exact ihN w' (Nat.lt_of_lt_of_le (sum_lt ho.toDo (hL j hi) hq) (by omega)) ho.live (hg.mono ho.more)
      intro w hN h hg
      rcases round hF hcl hd h hg with hr | ⟨w', ho, _, hb, i, hi, hp⟩
      · exact hr
      · refine hback ho hb ?_
        rcases hp with hp | hp
        · obtain ⟨s, hn⟩ := hi.node
          obtain ⟨t, f, h1, hf, h2⟩ := hE i s w'.clock hn
          exact hin (t + 1) w' i t f hi hp h1 (by omega) hf h2 (Nat.lt_of_le_of_lt (sum_le ho.toDo) hN) ho.live (hg.mono ho.more)
        · exact ihN w' (Nat.lt_of_lt_of_le (sum_lt ho.toDo (hL i hi) hp) (by omega)) ho.live (hg.mono ho.more)
  exact hout _ w (Nat.lt_succ_self _) h hg

end

end Verif.Build
