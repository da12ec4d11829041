import Verif.Lemmas.BuildEpub
import Verif.Lemmas.BuildAddsRun

/-! # Lemmas about the build of an epub whose package file has to be rendered -/

namespace Verif.Build

open Verif Verif.Decider Verif.Builder

variable {P : Project} {U : Scope} {b : Packs} {T0 T : Nat → List Nat} {free : Ghost} {e opf z : Nat} {page archive : Step} {D : Prop}
  {w : World} {S : Nat → Prop}

/-! ### The package file is not recorded by others -/

section
variable (hk : Packed P U b T0 T e opf z page archive)
include hk

theorem nd_write {fs : FS} {db : Dict Bytes Bytes} (h : ¬ Done P.cfg fs db page) {i : Nat} {s : Step} (hn : P.node i = some (.step s))
    (hi : i ≠ opf) (y : Option Bytes) : ¬ Done P.cfg (put fs s.out y) db page := by
  obtain ⟨h1, h2⟩ := hk.others i s hn hi
  refine fun hd => h (done_congr (fs := put fs s.out y) ?_ ?_ hd)
  · intro p hp
    have : p ≠ s.out := fun hh => h2 (hh ▸ hp)
    simp [put, this]
  · simp [put, Ne.symm h1]

theorem nd_note {fs : FS} {db db' : Dict Bytes Bytes} (h : ¬ Done P.cfg fs db page) {inputs : List Item} {output : Item} {r : Bool}
    (hr : P.cfg.buildNeeded fs db inputs output true = some (r, db'))
    (ha : ∀ k, P.cfg.hashItems fs page.inputs = some k → P.cfg.hashItems fs inputs ≠ some k) : ¬ Done P.cfg fs db' page := by
  rcases reset_cases hr with rfl | ⟨k, o, h1, _, rfl⟩
  · exact h
  · rintro ⟨k', o', hd, hg⟩
    refine h ⟨k', o', hd, ?_⟩
    rw [Dict.get?_set, if_neg] at hg
    · exact hg
    · rintro rfl
      exact ha _ hd.1 h1

theorem nd_noteStep {fs : FS} {db db' : Dict Bytes Bytes} (hf : U.files fs) (h : ¬ Done P.cfg fs db page) {i : Nat} {s : Step}
    (hn : P.node i = some (.step s)) (hi : i ≠ opf) {r : Bool}
    (hr : P.cfg.buildNeeded fs db s.inputs (.path s.out) true = some (r, db')) : ¬ Done P.cfg fs db' page :=
  nd_note hk h hr (fun k hkk => (hk.apart fs fs k hf hf hkk).1 i s hn hi)

theorem nd_end (hI : Inv P U T0 free w S) (h : ¬ Done P.cfg w.fs w.db page) (ev : Nat × Future) :
    ¬ Done P.cfg (P.end_ w ev).fs (P.end_ w ev).db page := by
  unfold Project.end_
  by_cases hr : (w.leaf ev.1).future = some .running
  · rw [if_pos hr]
    cases hn : P.node ev.1 with
    | none => exact h
    | some nd =>
      cases nd with
      | group g => exact h
      | step s =>
        have hi : ev.1 ≠ opf := by
          intro hh
          rw [hh] at hr
          rw [hI.plain opf page hk.render.1 hk.render.2] at hr
          cases hr
        simp only
        split
        · exact nd_write hk h hn hi _
        · exact h
  · rw [if_neg hr]; exact h

theorem nd_tick (hs : Sound P U) (hI : Inv P U T0 free w S) (h : ¬ Done P.cfg w.fs w.db page) :
    ¬ Done P.cfg (P.tick w).fs (P.tick w).db page := by
  unfold Project.tick
  have : ∀ (l : List (Nat × Future)) (w : World), Inv P U T0 free w S → ¬ Done P.cfg w.fs w.db page →
      ¬ Done P.cfg (l.foldl P.end_ w).fs (l.foldl P.end_ w).db page := by
    intro l
    induction l with
    | nil => exact fun w _ h => h
    | cons ev l ih => exact fun w hI h => ih _ (hI.end_ hs ev).inv (nd_end hk hI h ev)
  exact this _ w hI h

theorem nd_stepStatus (hs : Sound P U) (hI : Inv P U T0 free w S) (h : ¬ Done P.cfg w.fs w.db page) {i : Nat} {s : Step}
    (hn : P.node i = some (.step s)) : ¬ Done P.cfg (P.stepStatus i s w).2.fs (P.stepStatus i s w).2.db page := by
  unfold Project.stepStatus
  have h1 := nd_tick hk hs hI h
  have hI1 := (hI.tick hs).inv
  generalize P.tick w = w1 at h1 hI1 ⊢
  obtain ⟨sn, hsee, _, _, _, _⟩ := see_eq P.cfg w1.fs w1.db s
  simp only [Leaf.statusIn, hsee, Option.bind_some]
  by_cases hr : ((w1.leaf i).status sn).2.2 = true
  · rw [if_pos hr]
    have hi : i ≠ opf := by
      rintro rfl
      have hpl := hI1.plain i page hk.render.1 hk.render.2
      rcases status_cases (w1.leaf i) sn with ⟨_, _, h3⟩ | ⟨l', hl1, hl2, hl3, hc⟩
      · rw [h3] at hr; cases hr
      · rcases hc with ⟨_, h2⟩ | ⟨_, hf, h2⟩ | ⟨_, hf, h2⟩ | ⟨_, hf, h2⟩ | ⟨_, hf, _, h2⟩ | ⟨_, hf, _, h2⟩ | ⟨_, hf, h2⟩ | ⟨_, hf, h2⟩
        all_goals first
          | (rw [h2] at hr; cases hr; done)
          | (rw [hpl] at hf; cases hf; done)
    cases hb : P.cfg.buildNeeded w1.fs w1.db (s.parameters ++ [Item.other s.action]) (Item.path s.out) true with
    | none => exact h1
    | some q => exact nd_noteStep hk hI1.files h1 hn hi (r := q.1) hb
  · rw [if_neg hr]
    exact h1

theorem nd_run (hs : Sound P U) (hI : Inv P U T0 free w S) (h : ¬ Done P.cfg w.fs w.db page) {i : Nat} {s : Step}
    (hn : P.node i = some (.step s)) (hi : i ≠ opf) (ha : AllIn w.fs s) :
    ¬ Done P.cfg (P.run i s w).fs (P.run i s w).db page := by
  unfold Project.run
  split
  · have h1 := nd_write hk h hn hi (some (s.result w.fs))
    have hf : U.files (put w.fs s.out (some (s.result w.fs))) := hs.closed i s w.fs _ hn hI.files (contents_eq ha)
    simp only [Project.stepRecord]
    cases hb : P.cfg.buildNeeded (put w.fs s.out (some (s.result w.fs))) w.db s.inputs (.path s.out) true with
    | none => exact h1
    | some q => exact nd_noteStep hk hf h1 hn hi (r := q.1) hb
  · split <;> exact h

end

/-! ### The invariant -/

/-- The invariant of a build, with the archive: if `D`, then the package file is not recorded, or the archive is settled. -/
structure InvK (P : Project) (U : Scope) (T0 T : Nat → List Nat) (free : Ghost) (z : Nat) (page : Step) (D : Prop) (w : World)
    (S : Nat → Prop) : Prop where
  inv : Inv P U T0 free w S
  strong : ∀ n, Shrunk P T S (T0 n) (w.subs n)
  fresh : D → ¬ Done P.cfg w.fs w.db page ∨ S z

def NextK (P : Project) (U : Scope) (T0 T : Nat → List Nat) (free : Ghost) (z : Nat) (page : Step) (D : Prop) (S : Nat → Prop) (w' : World)
    (S' : Nat → Prop) : Prop := (∀ i, S i → S' i) ∧ InvK P U T0 T free z page D w' S'

theorem NextK.refl (h : InvK P U T0 T free z page D w S) : NextK P U T0 T free z page D S w S := ⟨fun _ h => h, h⟩

theorem NextK.trans {w1 w2 : World} {S1 S2 : Nat → Prop} (h : NextK P U T0 T free z page D S w1 S1)
    (h' : NextK P U T0 T free z page D S1 w2 S2) : NextK P U T0 T free z page D S w2 S2 := ⟨fun i hi => h'.1 i (h.1 i hi), h'.2⟩

/-- More is settled, and the package file is not recorded anew. -/
theorem NextK.of {w' : World} {S' : Nat → Prop} (h : InvK P U T0 T free z page D w S) (hn : Next P U T0 free w S w' S')
    (hsub : w'.subs = w.subs) (hnd : ¬ Done P.cfg w.fs w.db page → ¬ Done P.cfg w'.fs w'.db page) :
    NextK P U T0 T free z page D S w' S' := by
  refine ⟨hn.more, hn.inv, fun n => ?_, fun hd => ?_⟩
  · rw [hsub]; exact (h.strong n).mono hn.more
  · rcases h.fresh hd with h1 | h1
    · exact .inl (hnd h1)
    · exact .inr (hn.more _ h1)

/-- What is known of the operations that ask builders and record, for the builders of `B`. -/
structure AsksK (P : Project) (U : Scope) (T0 T : Nat → List Nat) (free : Ghost) (z : Nat) (page : Step) (D : Prop) (B : Nat → Prop)
    (O : Ops) : Prop where
  status : ∀ n w S, B n → InvK P U T0 T free z page D w S → ∀ st, (O.status n w).1 = .ok st →
    ∃ S', NextK P U T0 T free z page D S (O.status n w).2 S' ∧
      (st = .done → (Guarded P T S n ∨ ∀ i, Part P T n i → free i) → ∀ i, Part P T n i → S' i)
  record : ∀ n w S, B n → InvK P U T0 T free z page D w S → (∀ i, Part P T n i → S i) → ∀ r, (O.record n w).1 = .ok r →
    ∃ S', NextK P U T0 T free z page D S (O.record n w).2 S'

/-- What is known of the operations on the builders. -/
structure GoodK (P : Project) (U : Scope) (T0 T : Nat → List Nat) (free : Ghost) (z : Nat) (page : Step) (D : Prop) (B B' : Nat → Prop)
    (O : Ops) : Prop extends AsksK P U T0 T free z page D B O where
  build : ∀ n w S, B' n → InvK P U T0 T free z page D w S → Guarded P T S n → (O.build n w).1 = .ok () →
    ∃ S', NextK P U T0 T free z page D S (O.build n w).2 S'

structure StK (P : Project) (U : Scope) (T0 T : Nat → List Nat) (free : Ghost) (z : Nat) (page : Step) (D : Prop) (n : Nat)
    (s : State World) (S : Nat → Prop) : Prop where
  inv : InvK P U T0 T free z page D s.w S
  left : Shrunk P T S (T0 n) s.subs

/-- A computation of the composite builder `n` that raises nothing leads to a state in which more is settled, with `Q`. -/
def TripK (P : Project) (U : Scope) (T0 T : Nat → List Nat) (free : Ghost) (z : Nat) (page : Step) (D : Prop) (n : Nat) {α : Type}
    (x : M World α) (s : State World) (S : Nat → Prop) (Q : α → State World → (Nat → Prop) → Prop) : Prop :=
  ∀ a, (x s).1 = .ok a → ∃ S', (∀ i, S i → S' i) ∧ StK P U T0 T free z page D n (x s).2.1 S' ∧ Q a (x s).2.1 S'

theorem TripK.bind {n : Nat} {α β : Type} {x : M World α} {f : α → M World β} {s : State World} {S : Nat → Prop}
    {Q : α → State World → (Nat → Prop) → Prop} {R : β → State World → (Nat → Prop) → Prop}
    (hx : TripK P U T0 T free z page D n x s S Q)
    (hf : ∀ a s' S', StK P U T0 T free z page D n s' S' → (∀ i, S i → S' i) → Q a s' S' → TripK P U T0 T free z page D n (f a) s' S' R) :
    TripK P U T0 T free z page D n (x >>= f) s S R := by
  cases hq : x s with
  | mk r rest =>
    obtain ⟨s', t⟩ := rest
    unfold TripK at hx ⊢
    rw [hq] at hx
    cases r with
    | error e =>
      rw [bind_error _ _ _ _ _ _ hq]
      exact fun a h => by cases h
    | ok a =>
      rw [bind_ok _ _ _ _ _ _ hq]
      obtain ⟨S1, h1, h2, h3⟩ := hx a rfl
      intro c hc
      obtain ⟨S2, h4, h5, h6⟩ := hf a s' S1 h2 h1 h3 c hc
      exact ⟨S2, fun i hi => h4 i (h1 i hi), h5, h6⟩

theorem TripK.pure {n : Nat} {α : Type} {a : α} {s : State World} {S : Nat → Prop} {Q : α → State World → (Nat → Prop) → Prop}
    (hs : StK P U T0 T free z page D n s S) (hQ : Q a s S) : TripK P U T0 T free z page D n (Pure.pure a) s S Q :=
  fun c h => ⟨S, fun _ h => h, hs, by cases h; exact hQ⟩

theorem getSubs_tripK (n : Nat) (s : State World) (S : Nat → Prop) (hs : StK P U T0 T free z page D n s S) :
    TripK P U T0 T free z page D n (getSubs (W := World)) s S fun l s' S' => l = s.subs ∧ s' = s ∧ S' = S :=
  fun l h => ⟨S, fun _ h => h, hs, by
    refine ⟨?_, rfl, rfl⟩
    have : (Except.ok s.subs : Except Builder.Err _) = .ok l := h
    injection this with this
    exact this.symm⟩

section
variable {B : Nat → Prop} {O : Ops} (hO : AsksK P U T0 T free z page D B O) (n : Nat) (g : Group) (hB : ∀ m ∈ T0 n, B m)
include hO

theorem poll_tripK (m : Nat) (hm : B m) (s : State World) (S : Nat → Prop) (hs : StK P U T0 T free z page D n s S) :
    TripK P U T0 T free z page D n (poll (P.subsOf O n g) m) s S fun st s' S' => s'.subs = s.subs ∧
      (st = .done → (Guarded P T S m ∨ ∀ i, Part P T m i → free i) → ∀ i, Part P T m i → S' i) := by
  intro st h
  obtain ⟨S1, h1, h2⟩ := hO.status m s.w S hm hs.inv st h
  exact ⟨S1, h1.1, ⟨h1.2, hs.left.mono h1.1⟩, rfl, h2⟩

theorem pollAll_tripK (l : List Nat) (hl : ∀ m ∈ l, B m) (s : State World) (S : Nat → Prop) (hs : StK P U T0 T free z page D n s S) :
    TripK P U T0 T free z page D n (pollAll (P.subsOf O n g) l) s S fun sts s' S' => s'.subs = s.subs ∧
      ((∀ st ∈ sts, st = .done) → Cond P T (fun m => ∀ i, Part P T m i → free i) S l → ∀ m ∈ l, ∀ i, Part P T m i → S' i) := by
  induction l generalizing s S with
  | nil => exact .pure hs ⟨rfl, fun _ _ m hm => absurd hm (List.not_mem_nil)⟩
  | cons m l ih =>
    unfold pollAll
    refine (poll_tripK hO n g m (hl m (by simp)) s S hs).bind ?_
    rintro st s1 S1 hs1 hm1 ⟨he1, hd1⟩
    refine (ih (fun m hm => hl m (by simp [hm])) s1 S1 hs1).bind ?_
    rintro sts s2 S2 hs2 hm2 ⟨he2, hd2⟩
    refine .pure hs2 ⟨by rw [he2, he1], ?_⟩
    intro hall hc x hx i hi
    have hm := hd1 (hall st (by simp)) hc.head
    rcases List.mem_cons.1 hx with rfl | hx
    · exact hm2 i (hm i hi)
    · exact hd2 (fun st hst => hall st (by simp [hst])) (hc.tail hm1 hm) x hx i hi

include hB

theorem compStatus_tripK (s : State World) (S : Nat → Prop) (hs : StK P U T0 T free z page D n s S) :
    TripK P U T0 T free z page D n (compStatus (P.subsOf O n g)) s S fun st s' S' => s'.subs = s.subs ∧
      (st = .done → Cond P T (fun m => ∀ i, Part P T m i → free i) S (T0 n) → ∀ m ∈ T0 n, ∀ i, Part P T m i → S' i) := by
  unfold compStatus
  refine (getSubs_tripK n s S hs).bind ?_
  rintro l s1 S1 hs1 _ ⟨rfl, rfl, rfl⟩
  refine (pollAll_tripK hO n g s1.subs (fun m hm => hB m (hs1.left.mem m hm)) s1 S1 hs1).bind ?_
  rintro sts s2 S2 hs2 hm2 ⟨he2, hd2⟩
  refine .pure hs2 ⟨he2, ?_⟩
  intro hst hc m hm i hi
  have hall : ∀ st ∈ sts, st = .done := by
    unfold combine at hst
    intro st hmem
    by_cases hne : st = .done
    · exact hne
    · have : st ∈ sts.filter (· ≠ .done) := List.mem_filter.2 ⟨hmem, by simpa using hne⟩
      cases hf : sts.filter (· ≠ .done) with
      | nil => rw [hf] at this; exact absurd this (List.not_mem_nil)
      | cons x l =>
        rw [hf] at hst
        simp only at hst
        have hx : x ∈ sts.filter (· ≠ .done) := by rw [hf]; simp
        have := (List.mem_filter.1 hx).2
        rw [hst] at this
        simp at this
  have hc' := Cond.shrunk hs1.left S1 (fun _ h => h) hc
  rcases hs1.left.part m i hm hi with h | h
  · exact hm2 i h
  · exact hd2 hall hc' m h i hi

omit hB in
theorem clearDone_tripK (l : List Nat) (hl : ∀ m ∈ l, B m) (s : State World) (S : Nat → Prop) (hs : StK P U T0 T free z page D n s S)
    (hc : ∀ m ∈ l, Guarded P T S m ∨ ∀ i, Part P T m i → free i) :
    TripK P U T0 T free z page D n (clearDone (P.subsOf O n g) l) s S fun _ _ _ => True := by
  induction l generalizing s S with
  | nil => exact .pure hs trivial
  | cons m l ih =>
    unfold clearDone
    refine (poll_tripK hO n g m (hl m (by simp)) s S hs).bind ?_
    rintro st s1 S1 hs1 hm1 ⟨he1, hd1⟩
    have hl' : ∀ m ∈ l, B m := fun m hm => hl m (by simp [hm])
    have hc1 : ∀ x ∈ l, Guarded P T S1 x ∨ ∀ i, Part P T x i → free i := by
      intro x hx
      rcases hc x (by simp [hx]) with h | h
      · exact .inl (h.mono hm1)
      · exact .inr h
    split
    · rename_i hst
      have hr : TripK P U T0 T free z page D n (remove (W := World) m) s1 S1 fun _ _ S' => S' = S1 :=
        fun _ _ => ⟨S1, fun _ h => h, ⟨hs1.inv, hs1.left.erase m (hd1 hst (hc m (by simp)))⟩, rfl⟩
      refine hr.bind ?_
      rintro _ s2 S2 hs2 hm2 rfl
      exact ih hl' s2 S2 hs2 hc1
    · refine TripK.bind (x := (pure PUnit.unit : M World PUnit)) (f := fun _ => clearDone (P.subsOf O n g) l)
        (Q := fun _ s' S' => s' = s1 ∧ S' = S1) (.pure hs1 ⟨rfl, rfl⟩) ?_
      rintro _ s2 S2 hs2 _ ⟨rfl, rfl⟩
      exact ih hl' s2 S2 hs2 hc1

omit hB in
theorem anyRecord_nextK (l : List Nat) (hl : ∀ m ∈ l, B m) (w : World) (S : Nat → Prop) (hI : InvK P U T0 T free z page D w S)
    (hp : ∀ m ∈ l, ∀ i, Part P T m i → S i) (r : Bool) (hr : (anyRecord O l w).1 = .ok r) :
    ∃ S', NextK P U T0 T free z page D S (anyRecord O l w).2 S' := by
  induction l generalizing w S with
  | nil => exact ⟨S, .refl hI⟩
  | cons m l ih =>
    unfold anyRecord at hr ⊢
    have h1 := hO.record m w S (hl m (by simp)) hI (hp m (by simp))
    generalize O.record m w = q at h1 hr ⊢
    obtain ⟨x, w1⟩ := q
    cases x with
    | error e => cases hr
    | ok c =>
      obtain ⟨S1, h1⟩ := h1 c rfl
      cases c with
      | true => exact ⟨S1, h1⟩
      | false =>
        obtain ⟨S2, h2⟩ := ih (fun m hm => hl m (by simp [hm])) w1 S1 h1.2 (fun x hx i hi => h1.1 i (hp x (by simp [hx]) i hi)) hr
        exact ⟨S2, h1.trans h2⟩

theorem groupRecord_nextK (hk : Packed P U b T0 T e opf z page archive) (hs : Sound P U) (hn : P.node n = some (.group g)) (w : World)
    (S : Nat → Prop) (hI : InvK P U T0 T free z page D w S) (hp : ∀ m ∈ T0 n, ∀ i, Part P T m i → S i) (r : Bool)
    (hr : (P.groupRecord O n g w).1 = .ok r) : ∃ S', NextK P U T0 T free z page D S (P.groupRecord O n g w).2 S' := by
  unfold Project.groupRecord at hr ⊢
  by_cases hpar : g.parallel = true
  · rw [if_pos hpar] at hr ⊢
    exact anyRecord_nextK hO (w.subs n) (fun m hm => hB m ((hI.inv.left n).mem m hm)) w S hI
      (fun m hm => hp m ((hI.inv.left n).mem m hm)) r hr
  · rw [if_neg hpar] at hr ⊢
    have hpar' : g.parallel = false := by simpa using hpar
    cases hb : P.cfg.buildNeeded w.fs w.db g.inputs g.output true with
    | none => exact ⟨S, .refl hI⟩
    | some q =>
      refine ⟨S, NextK.of hI ⟨fun _ h => h, ?_, fun _ _ => rfl⟩ rfl (fun h => ?_)⟩
      · rcases reset_cases (r := q.1) (db' := q.2) hb with h | ⟨k, o, h1, _, h⟩
        · simp only [h]; exact hI.inv
        · simp only [h]
          exact hI.inv.groupRecord hs (fun s fs hU hF => hs.groups n g hn hpar' s w.fs fs k hU hI.inv.files hF h1)
      · exact nd_note hk h (r := q.1) hb (fun k hkk => (hk.apart w.fs w.fs k hI.inv.files hI.inv.files hkk).2 n g hn hpar')

theorem record_tripK (hk : Packed P U b T0 T e opf z page archive) (hs : Sound P U) (hn : P.node n = some (.group g)) (s : State World)
    (S : Nat → Prop) (hst : StK P U T0 T free z page D n s S) (hp : ∀ m ∈ T0 n, ∀ i, Part P T m i → S i) :
    TripK P U T0 T free z page D n (Builder.record (P.subsOf O n g)) s S fun _ _ _ => True := by
  have h0 := groupRecord_nextK hO n g hB hk hs hn s.w S hst.inv hp
  have : (Builder.record (P.subsOf O n g) s).2.1 = { s with w := (P.groupRecord O n g s.w).2 } ∧
      ∀ a, (Builder.record (P.subsOf O n g) s).1 = .ok a → ∃ r, (P.groupRecord O n g s.w).1 = .ok r := by
    show ({ s with w := ((P.subsOf O n g).record s.w).2 } : State World) = _ ∧
      ∀ a, ((P.subsOf O n g).record s.w).1 = .ok a → ∃ r, (P.groupRecord O n g s.w).1 = .ok r
    unfold Project.subsOf
    simp only
    generalize P.groupRecord O n g s.w = q
    obtain ⟨r, w1⟩ := q
    cases r with
    | error e => exact ⟨rfl, fun a h => by cases h⟩
    | ok r => exact ⟨rfl, fun a h => ⟨r, rfl⟩⟩
  intro a ha
  obtain ⟨r, hr⟩ := this.2 a ha
  rw [this.1]
  obtain ⟨S1, h1⟩ := h0 r hr
  exact ⟨S1, h1.1, ⟨h1.2, hst.left.mono h1.1⟩, trivial⟩

theorem finish_tripK (hk : Packed P U b T0 T e opf z page archive) (hs : Sound P U) (hn : P.node n = some (.group g)) (clear : Bool)
    (s : State World) (S : Nat → Prop) (hst : StK P U T0 T free z page D n s S) (hc : Cond P T (fun _ => False) S (T0 n))
    (hcl : clear = true → ∀ m ∈ T0 n, Guarded P T S m ∨ ∀ i, Part P T m i → free i) :
    TripK P U T0 T free z page D n (finish (P.subsOf O n g) clear) s S fun _ _ _ => True := by
  have hc' : Cond P T (fun m => ∀ i, Part P T m i → free i) S (T0 n) := fun a m c h => .inl ((hc a m c h).resolve_right id)
  have tail : ∀ (st : Status) (s1 : State World) (S1 : Nat → Prop), StK P U T0 T free z page D n s1 S1 → (∀ i, S i → S1 i) →
      TripK P U T0 T free z page D n (do
        if clear then
          let subs ← getSubs
          clearDone (P.subsOf O n g) subs
        pure st) s1 S1 fun _ _ _ => True := by
    intro st s1 S1 hs1 hm1
    cases clear with
    | false =>
      simp only [Bool.false_eq_true, if_false]
      exact TripK.bind (x := (pure PUnit.unit : M World PUnit)) (f := fun _ => (pure st : M World Status)) (Q := fun _ _ _ => True)
        (.pure hs1 trivial) (fun _ s2 S2 hs2 _ _ => .pure hs2 trivial)
    | true =>
      simp only [if_true]
      refine (getSubs_tripK n s1 S1 hs1).bind ?_
      rintro l s2 S2 hs2 _ ⟨rfl, rfl, rfl⟩
      refine (clearDone_tripK hO n g s2.subs (fun m hm => hB m (hs2.left.mem m hm)) s2 S2 hs2 ?_).bind
        (fun _ s3 S3 hs3 _ _ => .pure hs3 trivial)
      intro m hm
      rcases hcl rfl m (hs2.left.mem m hm) with h | h
      · exact .inl (h.mono hm1)
      · exact .inr h
  unfold finish
  refine (compStatus_tripK hO n g hB s S hst).bind ?_
  rintro st s1 S1 hs1 hm1 ⟨_, hd1⟩
  by_cases hd : st = .done
  · rw [if_pos hd]
    refine (record_tripK hO n g hB hk hs hn s1 S1 hs1 (hd1 hd hc')).bind ?_
    rintro _ s2 S2 hs2 hm2 _
    exact tail st s2 S2 hs2 (fun i hi => hm2 i (hm1 i hi))
  · rw [if_neg hd]
    exact tail st s1 S1 hs1 hm1

end

section
variable {B B' : Nat → Prop} {O : Ops} (hO : GoodK P U T0 T free z page D B B' O) (n : Nat) (g : Group) (hB : ∀ m ∈ T0 n, B m ∧ B' m)
include hO

theorem buildSub_tripK (m : Nat) (hm : B' m) (s : State World) (S : Nat → Prop) (hs : StK P U T0 T free z page D n s S)
    (hg : Guarded P T S m) : TripK P U T0 T free z page D n (buildSub (P.subsOf O n g) m) s S fun _ _ _ => True := by
  intro a ha
  obtain ⟨S1, h1⟩ := hO.build m s.w S hm hs.inv hg ha
  exact ⟨S1, h1.1, ⟨h1.2, hs.left.mono h1.1⟩, trivial⟩

theorem runOnce_tripK (par : Bool) (l : List Nat) (hl : ∀ m ∈ l, B m ∧ B' m) (s : State World) (S : Nat → Prop)
    (hs : StK P U T0 T free z page D n s S)
    (hc : if par then ∀ m ∈ l, Guarded P T S m else Cond P T (fun _ => False) S l) :
    TripK P U T0 T free z page D n (runOnce (P.subsOf O n g) par l) s S fun _ _ _ => True := by
  induction l generalizing s S with
  | nil => exact .pure hs trivial
  | cons m l ih =>
    unfold runOnce
    have hl' : ∀ m ∈ l, B m ∧ B' m := fun m hm => hl m (by simp [hm])
    have hgm : Guarded P T S m := by
      cases par with
      | true => rw [if_pos rfl] at hc; exact hc m (by simp)
      | false =>
        rw [if_neg (by simp)] at hc
        exact hc.head.resolve_right id
    refine (poll_tripK hO.toAsksK n g m (hl m (by simp)).1 s S hs).bind ?_
    rintro st s1 S1 hs1 hm1 ⟨he1, hd1⟩
    have hpar : par = true → (if par then ∀ m ∈ l, Guarded P T S1 m else Cond P T (fun _ => False) S1 l) := by
      intro hp
      rw [if_pos hp] at hc ⊢
      exact fun x hx => (hc x (by simp [hx])).mono hm1
    cases st with
    | done =>
      refine ih hl' s1 S1 hs1 ?_
      cases hp : par with
      | true => subst hp; exact hpar rfl
      | false =>
        subst hp
        rw [if_neg (by simp)] at hc ⊢
        exact hc.tail hm1 (hd1 rfl (.inl hgm))
    | building =>
      simp only
      split
      · rename_i hp; exact ih hl' s1 S1 hs1 (hpar hp)
      · exact .pure hs1 trivial
    | ready =>
      simp only
      refine (buildSub_tripK hO n g m (hl m (by simp)).2 s1 S1 hs1 (hgm.mono hm1)).bind ?_
      rintro _ s2 S2 hs2 hm2 _
      split
      · rename_i hp
        refine ih hl' s2 S2 hs2 ?_
        rw [if_pos hp] at hc ⊢
        exact fun x hx => (hc x (by simp [hx])).mono (fun i hi => hm2 i (hm1 i hi))
      · exact .pure hs2 trivial
    | missingParameters => exact .pure hs1 trivial
    | missingOutfile => exact .pure hs1 trivial
    | cancelled => exact .pure hs1 trivial

include hB

theorem build_tripK (hk : Packed P U b T0 T e opf z page archive) (hs : Sound P U) (hn : P.node n = some (.group g)) (s : State World)
    (S : Nat → Prop) (hst : StK P U T0 T free z page D n s S)
    (hg : if g.parallel then ∀ m ∈ T0 n, Guarded P T S m else Cond P T (fun _ => False) S (T0 n))
    (hcl : g.clear = true → ∀ m ∈ T0 n, Guarded P T S m ∨ ∀ i, Part P T m i → free i) :
    TripK P U T0 T free z page D n (Builder.build (P.subsOf O n g) g.parallel g.clear) s S fun _ _ _ => True := by
  have hc : Cond P T (fun _ => False) S (T0 n) := by
    split at hg
    · exact Cond.all (fun m hm => .inl (hg m hm))
    · exact hg
  have hB1 : ∀ m ∈ T0 n, B m := fun m hm => (hB m hm).1
  have tail : ∀ (s1 : State World) (S1 : Nat → Prop), StK P U T0 T free z page D n s1 S1 → (∀ i, S i → S1 i) →
      TripK P U T0 T free z page D n (finish (P.subsOf O n g) g.clear) s1 S1 fun _ _ _ => True := by
    intro s1 S1 hs1 hm1
    refine finish_tripK hO.toAsksK n g hB1 hk hs hn g.clear s1 S1 hs1 (hc.mono hm1) (fun h m hm => ?_)
    rcases hcl h m hm with h | h
    · exact .inl (h.mono hm1)
    · exact .inr h
  unfold Builder.build
  refine (compStatus_tripK hO.toAsksK n g hB1 s S hst).bind ?_
  rintro st s1 S1 hs1 hm1 _
  by_cases hb : st = .building ∨ st = .ready
  · rw [if_pos hb]
    refine (getSubs_tripK n s1 S1 hs1).bind ?_
    rintro l s2 S2 hs2 _ ⟨rfl, rfl, rfl⟩
    refine (runOnce_tripK hO n g g.parallel s2.subs (fun m hm => hB m (hs2.left.mem m hm)) s2 S2 hs2 ?_).bind ?_
    · split at hg
      · rename_i hp
        rw [if_pos hp]
        exact fun m hm => (hg m (hs2.left.mem m hm)).mono hm1
      · rename_i hp
        rw [if_neg hp]
        exact Cond.shrunk hs2.left S2 (fun _ h => h) (hg.mono hm1)
    · rintro _ s3 S3 hs3 hm3 _
      exact tail s3 S3 hs3 (fun i hi => hm3 i (hm1 i hi))
  · rw [if_neg hb]
    exact tail s1 S1 hs1 hm1

end

theorem Shrunk.down (h : ∀ m i, Part P T0 m i → Part P T m i) {l l' : List Nat} (hs : Shrunk P T S l l') : Shrunk P T0 S l l' := by
  induction hs with
  | nil => exact .nil
  | keep m l l' _ ih => exact .keep m l l' ih
  | drop m l l' hm _ ih => exact .drop m l l' (fun i hi => hm i (h m i hi)) ih

theorem Packed.parts (hk : Packed P U b T0 T e opf z page archive) (m i : Nat) (h : Part P T0 m i) : Part P T m i := by
  induction h with
  | step n s hn => exact .step n s hn
  | group n m i g hn hm _ ih =>
    refine .group n m i g hn ?_ ih
    by_cases he : n = e
    · subst he
      rw [hk.lists.1] at hm
      rw [hk.lists.2.1]
      simp only [List.mem_singleton] at hm
      simp [hm]
    · rw [(hk.lists.2.2 n he).1]; exact hm

theorem onSubs_nextK (hk : Packed P U b T0 T e opf z page archive) {α : Type} {n : Nat} {x : M World α}
    {Q : α → State World → (Nat → Prop) → Prop} (hI : InvK P U T0 T free z page D w S)
    (h : TripK P U T0 T free z page D n x ⟨w.subs n, w⟩ S Q) (a : α) (ha : (onSubs n x w).1 = .ok a) :
    ∃ S', NextK P U T0 T free z page D S (onSubs n x w).2 S' ∧ ∃ s', Q a s' S' := by
  obtain ⟨S1, h1, h2, h3⟩ := h a ha
  refine ⟨S1, ⟨h1, ?_, ?_, ?_⟩, _, h3⟩
  · exact h2.inv.inv.setSubs n _ (h2.left.down hk.parts)
  · intro m
    show Shrunk P T S1 (T0 m) (put _ n _ m)
    unfold put
    split
    · rename_i he; rw [he]; exact h2.left
    · exact h2.inv.strong m
  · exact h2.inv.fresh

/-! ### The levels -/

section
variable (hk : Packed P U b T0 T e opf z page archive) (hs : Sound P U)
include hk hs

theorem status_step {n : Nat} {s : Step} (hn : P.node n = some (.step s)) (w : World) (S : Nat → Prop)
    (hI : InvK P U T0 T free z page D w S) (st : Status) (hst : (P.stepStatus n s w).1 = .ok st) :
    ∃ S', NextK P U T0 T free z page D S (P.stepStatus n s w).2 S' ∧
      (st = .done → (Guarded P T S n ∨ ∀ i, Part P T n i → free i) → ∀ i, Part P T n i → S' i) := by
  obtain ⟨S1, h1, h2, _⟩ := hI.inv.stepStatus hs hn
  refine ⟨S1, NextK.of hI h1 (stepStatus_quiet n s w).2 (fun h => nd_stepStatus hk hs hI.inv h hn), ?_⟩
  intro hd hg i hi
  rw [part_step hn hi]
  refine h2 (by rw [hst, hd]) ?_
  rcases hg with h | h
  · exact .inl (guarded_step hn h)
  · exact .inr (h n (.step n s hn))

theorem record_step {n : Nat} {s : Step} (hn : P.node n = some (.step s)) (w : World) (S : Nat → Prop)
    (hI : InvK P U T0 T free z page D w S) (hp : ∀ i, Part P T n i → S i) {r : Bool} {w' : World} (hr : P.stepRecord s w = some (r, w')) :
    ∃ S', NextK P U T0 T free z page D S w' S' := by
  have hS := hp n (.step n s hn)
  obtain ⟨t, h1, ⟨k', o, hd, hg⟩, _⟩ := hI.inv.settled n hS
  rw [hn] at h1
  injection h1 with h1; injection h1 with h1; subst h1
  unfold Project.stepRecord at hr
  have he := record_eq P.cfg w.fs w.db s hd
  rw [he] at hr
  injection hr with hr; injection hr with _ hr
  rw [← hr]
  refine ⟨S, NextK.of hI ⟨fun _ h => h, hI.inv.record hs (hs.known _ _ hn) hd (hI.inv.truth s w.fs k' o (hs.known _ _ hn) hI.inv.files hd hg),
    fun _ _ => rfl⟩ rfl (fun h => ?_)⟩
  by_cases hi : n = opf
  · subst hi
    have := hk.render.1
    rw [hn] at this
    injection this with this; injection this with this; subst this
    exact absurd ⟨k', o, hd, hg⟩ h
  · exact nd_noteStep hk hI.inv.files h hn hi he

/-- A file is written and recorded. -/
theorem put__next {i : Nat} {s : Step} (hn : P.node i = some (.step s)) (hI : Inv P U T0 free w S) (hc : Covered P S s)
    (ha : AllIn w.fs s) : ∃ S', Next P U T0 free w S (P.put_ s w) S' ∧ S' i := by
  unfold Project.put_
  obtain ⟨h1, h2⟩ := hI.write hs hn hc ha
  have hcu := (current_iff _ _).1 h2
  obtain ⟨k, o, hdd⟩ := digests_of_there P.cfg hcu.1 (by rw [hcu.2]; simp)
  have hr := h1.record hs (hs.known _ _ hn) hdd h2
  have hd : Done P.cfg (put w.fs s.out (some (s.result w.fs))) (w.db.set k o) s := ⟨k, o, hdd, Dict.get?_set_self _ _ _⟩
  have hr' := hr.settle hn hd hc
  simp only [Project.stepRecord]
  rw [record_eq _ _ _ _ hdd]
  simp only [Option.map_some, Option.getD_some]
  exact ⟨_, ⟨fun _ h => .inl h, hr', fun _ _ => rfl⟩, .inr rfl⟩

omit hk hs in
theorem put__subs (s : Step) (w : World) : (P.put_ s w).subs = w.subs := by
  unfold Project.put_
  simp only [Project.stepRecord]
  cases P.cfg.buildNeeded (put w.fs s.out (some (s.result w.fs))) w.db s.inputs (.path s.out) true <;> rfl

/-- The list of an epub without the archive. -/
theorem cond_epub {A : Nat → Prop} (h : Cond P T A S (T e)) : Cond P T A S (T0 e) := by
  rw [hk.lists.2.1] at h
  rw [hk.lists.1]
  intro a m c hl
  have : a = [] ∧ m = opf ∧ c = [] := by
    cases a with
    | nil =>
      simp only [List.nil_append, List.cons.injEq] at hl
      exact ⟨rfl, hl.1.symm, hl.2.symm⟩
    | cons y a =>
      simp only [List.cons_append, List.cons.injEq] at hl
      have := congrArg List.length hl.2
      simp at this
  obtain ⟨rfl, rfl, rfl⟩ := this
  exact h [] m [z] rfl

theorem asksK (k : Nat) : AsksK P U T0 T free z page True (fun _ => True) (P.opsPack b k) := by
  induction k with
  | zero => exact ⟨fun n w S _ _ st h => (by cases h), fun n w S _ _ _ r h => (by cases h)⟩
  | succ k ih =>
    refine ⟨?_, ?_⟩
    · intro n w S _ hI st hst
      simp only [Project.opsPack] at hst ⊢
      cases hn : P.node n with
      | none => rw [hn] at hst; cases hst
      | some nd =>
        rw [hn] at hst
        cases nd with
        | step s => exact status_step hk hs hn w S hI st hst
        | group g =>
          simp only at hst ⊢
          obtain ⟨S1, h1, s', _, h2⟩ := onSubs_nextK hk hI (compStatus_tripK ih n g (fun _ _ => trivial) ⟨w.subs n, w⟩ S ⟨hI, hI.strong n⟩) st hst
          refine ⟨S1, h1, ?_⟩
          intro hd hg i hi
          have hc : Cond P T (fun m => ∀ i, Part P T m i → free i) S (T n) := by
            rcases hg with h | h
            · have := guarded_group hn h
              split at this
              · exact Cond.all (fun m hm => .inl (this m hm))
              · exact fun a m b hl => .inl ((this a m b hl).resolve_right id)
            · refine Cond.all (fun m hm => .inr ?_)
              exact fun i hi => h i (.group n m i g hn hm hi)
          obtain ⟨m, hm, hi⟩ := part_group hn hi
          by_cases he : n = e
          · subst he
            have h3 := h2 hd (cond_epub hk hs hc)
            have hopf : S1 opf := h3 opf (by rw [hk.lists.1]; simp) opf (.step opf page hk.render.1)
            rw [hk.lists.2.1] at hm
            simp only [List.mem_cons, List.not_mem_nil, or_false] at hm
            rcases hm with rfl | rfl
            · rw [part_step hk.render.1 hi]; exact hopf
            · rw [part_step hk.zip.1 hi]
              rcases h1.2.fresh trivial with h | h
              · obtain ⟨t, h4, h5, _⟩ := h1.2.inv.settled opf hopf
                rw [hk.render.1] at h4
                injection h4 with h4; injection h4 with h4; subst h4
                exact absurd h5 h
              · exact h
          · rw [(hk.lists.2.2 n he).1] at hm hc
            exact h2 hd hc m hm i hi
    · intro n w S _ hI hp r hr
      simp only [Project.opsPack] at hr ⊢
      cases hn : P.node n with
      | none => rw [hn] at hr; cases hr
      | some nd =>
        rw [hn] at hr
        cases nd with
        | step s =>
          simp only at hr ⊢
          cases hq : P.stepRecord s w with
          | none => rw [hq] at hr; cases hr
          | some q => exact record_step hk hs hn w S hI hp (r := q.1) (w' := q.2) hq
        | group g =>
          refine groupRecord_nextK ih n g (fun _ _ => trivial) hk hs hn w S hI (fun m hm i hi => hp i (.group n m i g hn ?_ hi)) r hr
          by_cases he : n = e
          · subst he
            rw [hk.lists.1] at hm
            rw [hk.lists.2.1]
            simp only [List.mem_singleton] at hm
            simp [hm]
          · rw [(hk.lists.2.2 n he).1]; exact hm

/-- What is known of the builder of the package file, inside of the epub. -/
theorem insideK (k : Nat) : GoodK P U T0 T free z page False (fun n => n = opf) (fun n => n = opf) (P.opsPack b k) := by
  cases k with
  | zero => exact ⟨⟨fun n w S _ _ st h => (by cases h), fun n w S _ _ _ r h => (by cases h)⟩, fun n w S _ _ _ h => by cases h⟩
  | succ k =>
    refine ⟨⟨?_, ?_⟩, ?_⟩
    · rintro n w S rfl hI st hst
      simp only [Project.opsPack, hk.render.1] at hst ⊢
      exact status_step hk hs hk.render.1 w S hI st hst
    · rintro n w S rfl hI hp r hr
      simp only [Project.opsPack, hk.render.1] at hr ⊢
      cases hq : P.stepRecord page w with
      | none => rw [hq] at hr; cases hr
      | some q => exact record_step hk hs hk.render.1 w S hI hp (r := q.1) (w' := q.2) hq
    · rintro n w S rfl hI hg hok
      simp only [Project.opsPack, hk.render.1] at hok ⊢
      obtain ⟨S1, h1⟩ := hI.inv.stepBuild hs hk.render.1 (guarded_step hk.render.1 hg)
      refine ⟨S1, h1.more, h1.inv, fun m => ?_, fun h => h.elim⟩
      rw [(stepBuild_runs n page w).1]
      exact (hI.strong m).mono h1.more

theorem goodK (hcl : ∀ n g, n ≠ e → P.node n = some (.group g) → g.clear = true → g.parallel = false → ∀ a m c, T0 n = a ++ m :: c →
      a ≠ [] → ∀ i, Part P T m i → free i) (k : Nat) :
    GoodK P U T0 T free z page True (fun _ => True) (fun n => n ≠ opf) (P.opsPack b k) := by
  induction k with
  | zero => exact ⟨asksK hk hs 0, fun n w S _ _ _ h => by cases h⟩
  | succ k ih =>
    refine ⟨asksK hk hs (k + 1), ?_⟩
    intro n w S hne hI hg hok
    simp only [Project.opsPack] at hok ⊢
    cases hn : P.node n with
    | none => rw [hn] at hok; cases hok
    | some nd =>
      rw [hn] at hok
      cases nd with
      | step s =>
        simp only
        obtain ⟨S1, h1⟩ := hI.inv.stepBuild hs hn (guarded_step hn hg)
        refine ⟨S1, NextK.of hI h1 (stepBuild_runs n s w).1 (fun h => ?_)⟩
        -- the package file is not recorded
        unfold Project.stepBuild
        obtain ⟨S2, h2, _, h3⟩ := hI.inv.stepStatus hs hn
        have h4 := nd_stepStatus hk hs hI.inv h hn
        generalize P.stepStatus n s w = q at h2 h3 h4 ⊢
        obtain ⟨r, w1⟩ := q
        cases r with
        | error er => exact h4
        | ok st =>
          simp only at h2 h3 h4 ⊢
          have key : ∃ S3, Next P U T0 free w S (if st = .building ∨ st = .ready then P.run n s w1 else w1) S3 ∧
              ¬ Done P.cfg (if st = .building ∨ st = .ready then P.run n s w1 else w1).fs
                (if st = .building ∨ st = .ready then P.run n s w1 else w1).db page := by
            by_cases hst : st = .building ∨ st = .ready
            · rw [if_pos hst]
              obtain ⟨ha, hS, hp, _⟩ := h3 (by rcases hst with rfl | rfl <;> simp)
              obtain ⟨S3, h5, _⟩ := h2.inv.run hs hn ((guarded_step hn hg).mono h2.more) ha hS hp
              exact ⟨S3, h2.trans h5, nd_run hk hs h2.inv h4 hn hne ha⟩
            · rw [if_neg hst]; exact ⟨S2, h2, h4⟩
          obtain ⟨S3, h5, h6⟩ := key
          have h7 := nd_stepStatus hk hs h5.inv h6 hn
          generalize P.stepStatus n s (if st = .building ∨ st = .ready then P.run n s w1 else w1) = q at h7 ⊢
          obtain ⟨r, w2⟩ := q
          cases r <;> exact h7
      | group g =>
        have hgg := guarded_group hn hg
        by_cases he : n = e
        · subst he
          obtain ⟨g', hg1, hg2⟩ := hk.group
          rw [hn] at hg1
          injection hg1 with hg1; injection hg1 with hg1; subst hg1
          rw [if_neg (by simp [hg2])] at hgg
          have hgg0 := cond_epub hk hs hgg
          have hfirst : Guarded P T S opf := by
            rw [hk.lists.1] at hgg0
            exact hgg0.head.resolve_right id
          have hI' : InvK P U T0 T free z page False w S := ⟨hI.inv, hI.strong, fun h => h.elim⟩
          have hbt := build_tripK (insideK hk hs k) n g (fun m hm => by rw [hk.lists.1] at hm; simpa using hm) hk hs hn ⟨w.subs n, w⟩ S
            ⟨hI', hI.strong n⟩ (by rw [if_neg (by simp [hg2])]; exact hgg0)
            (fun _ m hm => .inl (by rw [hk.lists.1] at hm; simp only [List.mem_singleton] at hm; rw [hm]; exact hfirst))
          have hon := onSubs_nextK hk hI' hbt
          simp only [hk.packs] at hok ⊢
          generalize onSubs n (Builder.build (P.subsOf (P.opsPack b k) n g) g.parallel g.clear) w = q at hok hon ⊢
          obtain ⟨r, w1⟩ := q
          cases r with
          | error er => cases hok
          | ok st =>
            obtain ⟨S1, h1, _⟩ := hon st rfl
            simp only [Project.pack, hk.render.1] at hok ⊢ h1
            by_cases hm : page.parameters.any (missing w1.fs) = true
            · rw [if_pos hm] at hok; cases hok
            · rw [if_neg hm] at hok ⊢
              have hall : AllIn w1.fs page := by
                intro p hp hnn
                apply hm
                rw [List.any_eq_true]
                exact ⟨_, hp, by simp [missing, hnn]⟩
              obtain ⟨S2, h2, h2'⟩ := put__next hk hs hk.render.1 h1.2.inv ((guarded_step hk.render.1 hfirst).mono h1.1) hall
              have hsub2 := put__subs (P := P) page w1
              generalize P.put_ page w1 = w2 at hok h2 hsub2 ⊢
              by_cases hm2 : archive.parameters.any (missing w2.fs) = true
              · rw [if_pos hm2] at hok; cases hok
              · rw [if_neg hm2]
                have hall2 : AllIn w2.fs archive := by
                  intro p hp hnn
                  apply hm2
                  rw [List.any_eq_true]
                  exact ⟨_, hp, by simp [missing, hnn]⟩
                have hcz : Covered P S2 archive := by
                  rw [hk.lists.2.1] at hgg
                  have := (hgg [opf] z [] rfl).resolve_right id
                  refine (guarded_step hk.zip.1 this).mono ?_
                  rintro i (hi | ⟨x, hx, hi⟩)
                  · exact h2.more i (h1.1 i hi)
                  · simp only [List.mem_singleton] at hx
                    subst hx
                    rw [part_step hk.render.1 hi]; exact h2'
                obtain ⟨S3, h3, h3'⟩ := put__next hk hs hk.zip.1 h2.inv hcz hall2
                refine ⟨S3, fun i hi => h3.more i (h2.more i (h1.1 i hi)), h3.inv, fun m => ?_, fun _ => .inr h3'⟩
                rw [put__subs, hsub2]
                exact (h1.2.strong m).mono (fun i hi => h3.more i (h2.more i hi))
        · simp only [hk.single n he] at hok ⊢
          obtain ⟨hl1, hl2⟩ := hk.lists.2.2 n he
          rw [hl1] at hgg
          have hbt := build_tripK ih n g (fun m hm => ⟨trivial, fun h => hl2 (h ▸ hm)⟩) hk hs hn ⟨w.subs n, w⟩ S ⟨hI, hI.strong n⟩ hgg (by
            intro hc m hm
            split at hgg
            · exact .inl (hgg m hm)
            · rename_i hp
              obtain ⟨a, c, hl⟩ := List.append_of_mem hm
              cases a with
              | nil =>
                refine .inl ?_
                exact (Cond.head (hl ▸ hgg)).resolve_right id
              | cons x a => exact .inr (hcl n g he hn hc (by simpa using hp) _ m c hl (by simp)))
          have hon := onSubs_nextK hk hI hbt
          generalize onSubs n (Builder.build (P.subsOf (P.opsPack b k) n g) g.parallel g.clear) w = q at hok hon ⊢
          obtain ⟨r, w1⟩ := q
          cases r with
          | error er => cases hok
          | ok st =>
            obtain ⟨S1, h1, _⟩ := hon st rfl
            exact ⟨S1, h1⟩

theorem buildPack_next (hcl : ∀ n g, n ≠ e → P.node n = some (.group g) → g.clear = true → g.parallel = false → ∀ a m c,
      T0 n = a ++ m :: c → a ≠ [] → ∀ i, Part P T m i → free i) (k root rounds : Nat) (hroot : root ≠ opf) (w : World) (S : Nat → Prop)
    (hI : InvK P U T0 T free z page True w S) (hg : Guarded P T S root) (hd : (P.buildPack b k root rounds w).1 = some (.ok .done)) :
    ∃ S', NextK P U T0 T free z page True S (P.buildPack b k root rounds w).2 S' ∧ ∀ i, Part P T root i → S' i := by
  have hO := goodK hk hs hcl k
  induction rounds generalizing w S with
  | zero => cases hd
  | succ r ih =>
    unfold Project.buildPack at hd ⊢
    have h1 := hO.status root w S trivial hI
    generalize (P.opsPack b k).status root w = q at h1 hd ⊢
    obtain ⟨st, w1⟩ := q
    cases st with
    | error e => cases hd
    | ok st =>
      obtain ⟨S1, h1, _⟩ := h1 st rfl
      simp only at h1 hd ⊢
      by_cases hb : st = .building ∨ st = .ready
      · rw [if_pos hb] at hd ⊢
        have h2 := hO.build root w1 S1 hroot h1.2 (hg.mono h1.1)
        generalize (P.opsPack b k).build root w1 = q at h2 hd ⊢
        obtain ⟨x, w2⟩ := q
        cases x with
        | error e => cases hd
        | ok u =>
          obtain ⟨S2, h2⟩ := h2 rfl
          obtain ⟨S3, h3, h4⟩ := ih w2 S2 h2.2 (hg.mono (fun i hi => h2.1 i (h1.1 i hi))) hd
          exact ⟨S3, (h1.trans h2).trans h3, h4⟩
      · rw [if_neg hb] at hd ⊢
        have h2 := hO.status root w1 S1 trivial h1.2
        generalize (P.opsPack b k).status root w1 = q at h2 hd ⊢
        obtain ⟨x, w2⟩ := q
        cases x with
        | error e => cases hd
        | ok st2 =>
          obtain ⟨S2, h2, h3⟩ := h2 st2 rfl
          exact ⟨S2, h1.trans h2, h3 (by injection hd with hd; injection hd) (.inl (hg.mono h1.1))⟩

end

end Verif.Build
