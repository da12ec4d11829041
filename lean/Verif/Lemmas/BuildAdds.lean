import Verif.Lemmas.BuildKeeps
import Verif.Spec.BuildAdds

/-! # Lemmas about builds in which builders are added -/

namespace Verif.Build

open Verif Verif.Decider Verif.Builder

variable {P : Project} {U : Scope} {A : Nat → List Nat} {a : Adds} {free : Ghost}

/-! ### The sub-builders that are added -/

theorem grown_sub (r : Nat → Nat) (n m : Nat) (h : m ∈ A n) : m ∈ grown A a r n := List.mem_append.2 (.inl h)

theorem grown_mono {r r' : Nat → Nat} (h : ∀ n p l, a n = some (p, l) → r p ≠ 0 → r' p ≠ 0) (n m : Nat) (hm : m ∈ grown A a r n) :
    m ∈ grown A a r' n := by
  unfold grown at *
  rcases List.mem_append.1 hm with hm | hm
  · exact List.mem_append.2 (.inl hm)
  · refine List.mem_append.2 (.inr ?_)
    cases ha : a n with
    | none => rw [ha] at hm; exact absurd hm (List.not_mem_nil)
    | some q =>
      obtain ⟨p, l⟩ := q
      rw [ha] at hm
      simp only at hm ⊢
      by_cases h0 : r p = 0
      · rw [if_pos h0] at hm; exact absurd hm (List.not_mem_nil)
      · rw [if_neg h0] at hm
        rw [if_neg (h n p l ha h0)]; exact hm

theorem grown_full (r : Nat → Nat) (n m : Nat) (hm : m ∈ grown A a r n) : m ∈ grown A a (fun _ => 1) n :=
  grown_mono (r := r) (r' := fun _ => 1) (fun _ _ _ _ _ => by simp) n m hm

theorem grown_eq {r r' : Nat → Nat} {n : Nat} (h : ∀ p l, a n = some (p, l) → (r p = 0 ↔ r' p = 0)) : grown A a r n = grown A a r' n := by
  unfold grown
  cases ha : a n with
  | none => rfl
  | some q =>
    obtain ⟨p, l⟩ := q
    have := h p l ha
    simp only [this]

theorem Part.mono {B B' : Nat → List Nat} (h : ∀ n m, m ∈ B n → m ∈ B' n) {n i : Nat} (hp : Part P B n i) : Part P B' n i := by
  induction hp with
  | step n s hn => exact .step n s hn
  | group n m i g hn hm _ ih => exact .group n m i g hn (h n m hm) ih

theorem part_full {r : Nat → Nat} {n i : Nat} (h : Part P (grown A a r) n i) : Part P (grown A a fun _ => 1) n i := h.mono (grown_full r)

/-- A group that gets builders is a sub-builder. -/
def HasTarget (A : Nat → List Nat) (a : Adds) (k : Nat) : Prop := ∃ n ∈ A k, ∃ p l, a n = some (p, l)

/-- The page `p` is rendered for the first time. -/
structure First (r r' : Nat → Nat) (p : Nat) : Prop where
  before : r p = 0
  after : r' p ≠ 0
  others : ∀ q, q ≠ p → r' q = r q

theorem First.grown (r r' : Nat → Nat) (p : Nat) (h : First r r' p) (k : Nat) : grown A a r' k = grown A a r k ++ a.of k p := by
  unfold Build.grown Adds.of
  cases ha : a k with
  | none => simp
  | some q =>
    obtain ⟨q, l⟩ := q
    simp only
    by_cases hq : q = p
    · subst hq
      rw [if_neg h.after, if_pos h.before, if_pos rfl]; simp
    · rw [if_neg hq, h.others q hq]; simp

section
variable (hf : Fits P A a)
include hf

theorem grown_group {r : Nat → Nat} {k m n p : Nat} {l : List Nat} (ha : a n = some (p, l)) (hm : m = n ∨ Under P A m n)
    (h : m ∈ grown A a r k) : m ∈ A k := by
  unfold grown at h
  rcases List.mem_append.1 h with h | h
  · exact h
  · cases hk : a k with
    | none => rw [hk] at h; exact absurd h (List.not_mem_nil)
    | some q =>
      obtain ⟨q, l'⟩ := q
      rw [hk] at h
      simp only at h
      split at h
      · exact absurd h (List.not_mem_nil)
      · obtain ⟨h1, h2⟩ := hf.added k q l' hk m h
        rcases hm with rfl | hm
        · rw [ha] at h1; cases h1
        · rw [h2 n hm] at ha; cases ha

/-- What is new below a builder is so because of a group to which the page adds. -/
theorem part_first {r r' : Nat → Nat} {p : Nat} (h : First r r' p) {m i : Nat} (hp : Part P (grown A a r') m i) :
    Part P (grown A a r) m i ∨ ∃ n l, a n = some (p, l) ∧ (m = n ∨ Under P A m n) := by
  induction hp with
  | step n s hn => exact .inl (.step n s hn)
  | group m x i g hm hx _ ih =>
    rw [h.grown] at hx
    rcases List.mem_append.1 hx with hx | hx
    · rcases ih with ih | ⟨n, l, ha, hn⟩
      · exact .inl (.group m x i g hm hx ih)
      · refine .inr ⟨n, l, ha, .inr ?_⟩
        rcases hn with rfl | hn
        · exact .child m x g hm (grown_group hf ha (.inl rfl) hx)
        · exact .deeper m x n g hm (grown_group hf ha (.inr hn) hx) hn
    · refine .inr ⟨m, (a m).get!.2, ?_, .inl rfl⟩
      unfold Adds.of at hx
      cases ha : a m with
      | none => rw [ha] at hx; exact absurd hx (List.not_mem_nil)
      | some q =>
        obtain ⟨q, l⟩ := q
        rw [ha] at hx
        simp only at hx
        split at hx
        · rename_i he; rw [he]; rfl
        · exact absurd hx (List.not_mem_nil)

theorem shrunk_first {r r' : Nat → Nat} {p : Nat} (h : First r r' p) {S : Nat → Prop} (hS : ¬ S p) {l l' : List Nat}
    (hl : ∀ n ∈ l, ∀ q l, a n ≠ some (q, l)) (hsh : Shrunk P (grown A a r) S l l') : Shrunk P (grown A a r') S l l' := by
  induction hsh with
  | nil => exact .nil
  | keep m l l' _ ih => exact .keep m l l' (ih (fun n hn => hl n (by simp [hn])))
  | drop m l l' hm _ ih =>
    refine .drop m l l' ?_ (ih (fun n hn => hl n (by simp [hn])))
    intro i hi
    rcases part_first hf h hi with h1 | ⟨n, l1, ha, h2⟩
    · exact hm i h1
    · rcases h2 with rfl | h2
      · exact absurd ha (hl m (by simp) p l1)
      · exact absurd (hm p ((hf.beside n p l1 ha m h2).mono (fun _ _ => grown_sub r _ _))) hS

theorem Shrunk.append {B : Nat → List Nat} {S : Nat → Prop} {l l' : List Nat} (h : Shrunk P B S l l') (x : List Nat) :
    Shrunk P B S (l ++ x) (l' ++ x) := by
  induction h with
  | nil => exact .refl _ _
  | keep m l l' _ ih => exact .keep m _ _ ih
  | drop m l l' hm _ ih => exact .drop m _ _ hm ih

/-- Lists of sub-builders, when a page is rendered for the first time. -/
theorem shrunk_grows {r r' : Nat → Nat} {p : Nat} (h : First r r' p) {S : Nat → Prop} (hS : ¬ S p) {k : Nat} {l : List Nat}
    (hfix : HasTarget A a k → l = grown A a r k) (hsh : Shrunk P (grown A a r) S (grown A a r k) l) :
    Shrunk P (grown A a r') S (grown A a r' k) (l ++ a.of k p) := by
  rw [h.grown]
  refine Shrunk.append hf ?_ _
  by_cases ht : HasTarget A a k
  · rw [hfix ht]; exact .refl _ _
  · refine shrunk_first hf h hS ?_ hsh
    intro n hn q l1 ha
    exact ht ⟨n, grown_group hf ha (.inl rfl) hn, q, l1, ha⟩

end

/-! ### Operations that run nothing -/

def Quiet (w w' : World) : Prop := w'.runs = w.runs ∧ w'.subs = w.subs

theorem Quiet.refl (w : World) : Quiet w w := ⟨rfl, rfl⟩
theorem Quiet.trans {w1 w2 w3 : World} (h : Quiet w1 w2) (h' : Quiet w2 w3) : Quiet w1 w3 := ⟨h'.1.trans h.1, h'.2.trans h.2⟩

/-- A computation that runs nothing. -/
def QuietM {α : Type} (x : M World α) : Prop := ∀ s, Quiet s.w (x s).2.1.w

/-- A computation that keeps the sub-builders. -/
def Stay {α : Type} (x : M World α) : Prop := ∀ s, (x s).2.1.subs = s.subs

theorem QuietM.pure {α : Type} (x : α) : QuietM (Pure.pure x : M World α) := fun _ => .refl _
theorem Stay.pure {α : Type} (x : α) : Stay (Pure.pure x : M World α) := fun _ => rfl

theorem QuietM.bind {α β : Type} {x : M World α} {f : α → M World β} (hx : QuietM x) (hf : ∀ c, QuietM (f c)) : QuietM (x >>= f) := by
  intro s
  have h1 := hx s
  cases hq : x s with
  | mk r rest =>
    obtain ⟨s', t⟩ := rest
    rw [hq] at h1
    cases r with
    | error e => rw [bind_error _ _ _ _ _ _ hq]; exact h1
    | ok c => rw [bind_ok _ _ _ _ _ _ hq]; exact h1.trans (hf c s')

theorem Stay.bind {α β : Type} {x : M World α} {f : α → M World β} (hx : Stay x) (hf : ∀ c, Stay (f c)) : Stay (x >>= f) := by
  intro s
  have h1 := hx s
  cases hq : x s with
  | mk r rest =>
    obtain ⟨s', t⟩ := rest
    rw [hq] at h1
    cases r with
    | error e => rw [bind_error _ _ _ _ _ _ hq]; exact h1
    | ok c => rw [bind_ok _ _ _ _ _ _ hq]; exact (hf c s').trans h1

structure QuietOps (O : Ops) : Prop where
  status : ∀ n w, Quiet w (O.status n w).2
  record : ∀ n w, Quiet w (O.record n w).2

theorem tick_quiet (w : World) : Quiet w (P.tick w) := by
  have h1 : ∀ (w : World) (e : Nat × Future), Quiet w (P.end_ w e) := by
    intro w e
    unfold Project.end_
    split
    · split <;> exact ⟨rfl, rfl⟩
    · exact .refl _
  have : ∀ (l : List (Nat × Future)) (w : World), Quiet w (l.foldl P.end_ w) := by
    intro l
    induction l with
    | nil => exact .refl
    | cons e l ih => exact fun w => (h1 w e).trans (ih _)
  unfold Project.tick
  exact ⟨(this _ w).1, (this _ w).2⟩

theorem stepStatus_quiet (i : Nat) (s : Step) (w : World) : Quiet w (P.stepStatus i s w).2 := by
  have h := tick_quiet (P := P) w
  unfold Project.stepStatus
  generalize P.tick w = w1 at h
  simp only
  split
  · exact h
  · exact ⟨h.1, h.2⟩

section
variable {O : Ops} (hO : QuietOps O) (n : Nat) (g : Group)
include hO

theorem anyRecord_quiet (l : List Nat) (w : World) : Quiet w (anyRecord O l w).2 := by
  induction l generalizing w with
  | nil => exact .refl w
  | cons m l ih =>
    unfold anyRecord
    have h1 := hO.record m w
    generalize O.record m w = q at h1 ⊢
    obtain ⟨r, w1⟩ := q
    cases r with
    | error e => exact h1
    | ok b => cases b with
      | true => exact h1
      | false => exact h1.trans (ih w1)

theorem groupRecord_quiet (w : World) : Quiet w (P.groupRecord O n g w).2 := by
  unfold Project.groupRecord
  split
  · exact anyRecord_quiet hO _ _
  · split
    · exact .refl w
    · exact ⟨rfl, rfl⟩

theorem poll_quiet (i : Nat) : QuietM (poll (P.subsOf O n g) i) := fun s => hO.status i s.w

theorem record_quiet : QuietM (Builder.record (P.subsOf O n g)) := by
  intro s
  have h1 := groupRecord_quiet (P := P) hO n g s.w
  show Quiet s.w ((P.subsOf O n g).record s.w).2
  unfold Project.subsOf
  simp only
  generalize P.groupRecord O n g s.w = q at h1 ⊢
  obtain ⟨r, w1⟩ := q
  cases r <;> exact h1

theorem pollAll_quiet (l : List Nat) : QuietM (pollAll (P.subsOf O n g) l) := by
  induction l with
  | nil => exact .pure _
  | cons m l ih => exact (poll_quiet hO n g m).bind (fun _ => ih.bind (fun _ => .pure _))

theorem compStatus_quiet : QuietM (compStatus (P.subsOf O n g)) :=
  QuietM.bind (x := getSubs) (fun _ => .refl _) (fun _ => (pollAll_quiet hO n g _).bind (fun _ => .pure _))

theorem clearDone_quiet (l : List Nat) : QuietM (clearDone (P.subsOf O n g) l) := by
  induction l with
  | nil => exact .pure _
  | cons m l ih =>
    unfold clearDone
    refine (poll_quiet hO n g m).bind (fun st => ?_)
    by_cases hd : st = .done
    · rw [if_pos hd]
      exact QuietM.bind (x := remove m) (fun _ => .refl _) (fun _ => ih)
    · rw [if_neg hd]; exact ih

theorem finish_quiet (clear : Bool) : QuietM (finish (P.subsOf O n g) clear) := by
  have tail : ∀ st : Status, QuietM (do
        if clear then
          let subs ← getSubs
          clearDone (P.subsOf O n g) subs
        pure st : M World Status) := by
    intro st
    cases clear with
    | false => exact .pure _
    | true => exact QuietM.bind (x := getSubs) (fun _ => .refl _) (fun _ => (clearDone_quiet hO n g _).bind (fun _ => .pure _))
  unfold finish
  refine (compStatus_quiet hO n g).bind (fun st => ?_)
  by_cases hd : st = .done
  · rw [if_pos hd]
    exact (record_quiet hO n g).bind (fun _ => tail st)
  · rw [if_neg hd]; exact tail st

end

section
variable (O : Ops) (n : Nat) (g : Group)

theorem pollAll_stay (l : List Nat) : Stay (pollAll (P.subsOf O n g) l) := by
  induction l with
  | nil => exact .pure _
  | cons m l ih => exact Stay.bind (x := poll _ m) (fun _ => rfl) (fun _ => ih.bind (fun _ => .pure _))

theorem compStatus_stay : Stay (compStatus (P.subsOf O n g)) :=
  Stay.bind (x := getSubs) (fun _ => rfl) (fun _ => (pollAll_stay O n g _).bind (fun _ => .pure _))

theorem finish_stay : Stay (finish (P.subsOf O n g) false) := by
  unfold finish
  refine (compStatus_stay O n g).bind (fun st => ?_)
  by_cases hd : st = .done
  · rw [if_pos hd]
    exact Stay.bind (x := Builder.record _) (fun _ => rfl) (fun _ => .pure st)
  · rw [if_neg hd]; exact .pure st

end

/-- Putting back the sub-builders that there were changes nothing. -/
theorem onSubs_quiet {α : Type} {x : M World α} (hx : QuietM x) (hst : Stay x) (n : Nat) (w : World) : Quiet w (onSubs n x w).2 := by
  have h1 := hx ⟨w.subs n, w⟩
  have h2 := hst ⟨w.subs n, w⟩
  refine ⟨h1.1, ?_⟩
  funext m
  show put (x ⟨w.subs n, w⟩).2.1.w.subs n (x ⟨w.subs n, w⟩).2.1.subs m = w.subs m
  rw [h2, h1.2]
  unfold put
  split
  · rename_i he; rw [he]
  · rfl

theorem opsAdds_quiet (a : Adds) (k : Nat) : QuietOps (P.opsAdds a k) := by
  induction k with
  | zero => exact ⟨fun _ w => .refl w, fun _ w => .refl w⟩
  | succ k ih =>
    refine ⟨?_, ?_⟩ <;> intro n w <;> simp only [Project.opsAdds] <;> cases hn : P.node n with
    | none => exact .refl w
    | some nd => ?_
    · cases nd with
      | step s => exact stepStatus_quiet n s w
      | group g => exact onSubs_quiet (compStatus_quiet ih n g) (compStatus_stay _ n g) n w
    · cases nd with
      | step s =>
        simp only [Project.stepRecord]
        cases P.cfg.buildNeeded w.fs w.db s.inputs (.path s.out) true with
        | none => exact .refl w
        | some q => exact ⟨rfl, rfl⟩
      | group g => exact groupRecord_quiet ih n g w

theorem opsAdds_asks (hs : Sound P U) (subs0 : Nat → List Nat) (a : Adds) (k : Nat) : Asks P U subs0 free (P.opsAdds a k) := by
  induction k with
  | zero => exact ⟨fun n w S h => ⟨S, .refl h, fun h => by cases h⟩, fun n w S h _ => ⟨S, .refl h⟩⟩
  | succ k ih => exact asks_level hs ih rfl rfl

end Verif.Build
