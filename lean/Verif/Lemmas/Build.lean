import Verif.Spec.Build
import Verif.Props.Decider
import Verif.Lemmas.Builder

/-! # Lemmas about the build of a document -/

namespace Verif.Build

open Verif Verif.Decider Verif.Builder

/-- What does not change in a build: steps that need not be run if there are files of theirs, and the database before it. -/
structure Ghost where
  free : Nat → Prop
  old : Dict Bytes Bytes

instance : CoeFun Ghost fun _ => Nat → Prop := ⟨Ghost.free⟩

/-- What was recorded for steps is recorded. -/
def Remembers (c : Cfg) (U : Scope) (old db : Dict Bytes Bytes) : Prop :=
  ∀ t fs k o, U.step t → U.files fs → Digests c fs t k o → old.get? k = some o → db.get? k = some o

variable {P : Project} {U : Scope} {subs0 : Nat → List Nat} {free : Ghost}

/-! ### Decisions -/

/-- The files of the parameters are there. -/
def AllIn (fs : FS) (s : Step) : Prop := ∀ p, Item.path p ∈ s.parameters → fs p ≠ none

theorem there_iff (fs : FS) (s : Step) : filesMissing fs s.inputs (.path s.out) = some false ↔ AllIn fs s ∧ fs s.out ≠ none := by
  rw [filesMissing_iff]
  constructor
  · rintro ⟨_, h⟩
    exact ⟨fun p hp => h p (by simp [Step.inputs, hp]), h _ (by simp)⟩
  · rintro ⟨h1, h2⟩
    refine ⟨by simp [Step.inputs], fun p hp => ?_⟩
    simp only [Step.inputs, List.mem_cons, List.mem_append, Item.path.injEq, List.not_mem_nil, or_false, reduceCtorEq] at hp
    rcases hp with rfl | hp
    · exact h2
    · exact h1 p hp

theorem filesMissing_some (fs : FS) (s : Step) : ∃ b, filesMissing fs s.inputs (.path s.out) = some b := by
  unfold filesMissing
  rw [if_neg (by simp [Step.inputs])]
  split <;> (try split) <;> exact ⟨_, rfl⟩

theorem digests_there {c : Cfg} {fs : FS} {s : Step} {k o : Bytes} (h : Digests c fs s k o) : AllIn fs s ∧ fs s.out ≠ none := by
  obtain ⟨h1, h2⟩ := h
  constructor
  · intro p hp hn
    unfold Cfg.hashItems at h1
    rw [(mapM_none_iff _ _).2 ⟨.path p, by simp [hp], by simp [Cfg.fed, hn]⟩] at h1
    cases h1
  · intro hn
    unfold Cfg.hashItems at h2
    rw [(mapM_none_iff _ _).2 ⟨.path s.out, by simp, by simp [Cfg.fed, hn]⟩] at h2
    cases h2

theorem digests_of_there (c : Cfg) {fs : FS} {s : Step} (h : AllIn fs s) (h' : fs s.out ≠ none) : ∃ k o, Digests c fs s k o := by
  obtain ⟨i, o, h⟩ := digests_exist c fs s.inputs (.path s.out) ((there_iff fs s).2 ⟨h, h'⟩)
  exact ⟨i, o, (calculateHash_iff _ _ _ _ _ _).1 h⟩

theorem digests_unique {c : Cfg} {fs : FS} {s : Step} {k o k' o' : Bytes} (h : Digests c fs s k o) (h' : Digests c fs s k' o') :
    k = k' ∧ o = o' := by
  obtain ⟨h1, h2⟩ := h
  obtain ⟨h3, h4⟩ := h'
  rw [h1] at h3; rw [h2] at h4
  exact ⟨Option.some.inj h3, Option.some.inj h4⟩

/-- The digests are recorded. -/
def Done (c : Cfg) (fs : FS) (db : Dict Bytes Bytes) (s : Step) : Prop := ∃ k o, Digests c fs s k o ∧ db.get? k = some o

theorem ask_eq (c : Cfg) (fs : FS) (db : Dict Bytes Bytes) (s : Step) :
    ∃ b, c.buildNeeded fs db s.inputs (.path s.out) false = some (b, db) ∧ (b = false ↔ Done c fs db s) := by
  unfold Cfg.buildNeeded
  obtain ⟨b, h⟩ := filesMissing_some fs s
  rw [h]
  cases b with
  | true =>
    refine ⟨true, rfl, by simp, ?_⟩
    rintro ⟨k, o, hd, _⟩
    rw [(there_iff fs s).2 (digests_there hd)] at h
    cases h
  | false =>
    obtain ⟨k, o, hd⟩ := digests_of_there c ((there_iff fs s).1 h).1 ((there_iff fs s).1 h).2
    rw [show c.calculateHash fs s.inputs (.path s.out) = some (k, o) from (calculateHash_iff _ _ _ _ _ _).2 hd]
    refine ⟨_, rfl, ?_⟩
    simp only [decide_eq_false_iff_not, ne_eq, Decidable.not_not]
    constructor
    · exact fun h => ⟨k, o, hd, h⟩
    · rintro ⟨k', o', hd', h⟩
      obtain ⟨rfl, rfl⟩ := digests_unique hd hd'
      exact h

theorem record_eq (c : Cfg) (fs : FS) (db : Dict Bytes Bytes) (s : Step) {k o : Bytes} (h : Digests c fs s k o) :
    c.buildNeeded fs db s.inputs (.path s.out) true = some (false, db.set k o) := by
  unfold Cfg.buildNeeded
  rw [(there_iff fs s).2 (digests_there h),
    show c.calculateHash fs s.inputs (.path s.out) = some (k, o) from (calculateHash_iff _ _ _ _ _ _).2 h]
  rfl

theorem contents_eq {fs : FS} {s : Step} (h : AllIn fs s) : Contents fs s.parameters (s.parameters.map (content fs)) := by
  unfold Contents
  rw [List.map_map]
  apply List.map_congr_left
  intro it hit
  cases it with
  | other b => rfl
  | path p =>
    cases hp : fs p with
    | none => exact absurd hp (h p hit)
    | some b => simp [content, hp]

theorem current_iff (fs : FS) (s : Step) : Current fs s ↔ AllIn fs s ∧ fs s.out = some (s.result fs) := by
  constructor
  · rintro ⟨bs, h1, h2⟩
    have ha : AllIn fs s := by
      intro p hp hn
      have : (none : Option Bytes) ∈ bs.map some := by
        rw [← h1]
        exact List.mem_map.2 ⟨_, hp, hn⟩
      simp at this
    have := contents_eq ha
    unfold Contents at this h1
    rw [h1] at this
    rw [List.map_inj_right (fun _ _ h => Option.some.inj h)] at this
    exact ⟨ha, by rw [h2, this]; rfl⟩
  · rintro ⟨h1, h2⟩
    exact ⟨_, contents_eq h1, h2⟩

/-! ### Files -/

/-- Two file systems agree on the parameters of a step. -/
def Agree (fs fs' : FS) (s : Step) : Prop := ∀ p, Item.path p ∈ s.parameters → fs p = fs' p

theorem result_congr {fs fs' : FS} {s : Step} (h : Agree fs fs' s) : s.result fs = s.result fs' := by
  unfold Step.result
  congr 1
  apply List.map_congr_left
  intro it hit
  cases it with
  | other b => rfl
  | path p => simp only [content]; rw [h p hit]

theorem fed_congr (c : Cfg) {fs fs' : FS} {it : Item} (h : ∀ p, it = .path p → fs p = fs' p) : c.fed fs it = c.fed fs' it := by
  cases it with
  | other b => rfl
  | path p => simp only [Cfg.fed]; rw [h p rfl]

theorem mapM_congr' {α β : Type} (f g : α → Option β) (l : List α) (h : ∀ a ∈ l, f a = g a) : l.mapM f = l.mapM g := by
  induction l with
  | nil => rfl
  | cons a l ih =>
    simp only [List.mapM_cons]
    rw [h a (by simp), ih (fun b hb => h b (by simp [hb]))]

theorem hashItems_congr (c : Cfg) {fs fs' : FS} {l : List Item} (h : ∀ p, Item.path p ∈ l → fs p = fs' p) :
    c.hashItems fs l = c.hashItems fs' l := by
  unfold Cfg.hashItems
  rw [mapM_congr' _ (c.fed fs') l]
  intro it hit
  exact fed_congr c (fun p hp => h p (hp ▸ hit))

theorem done_congr {c : Cfg} {fs fs' : FS} {db : Dict Bytes Bytes} {s : Step} (h : Agree fs fs' s) (ho : fs s.out = fs' s.out)
    (hd : Done c fs db s) : Done c fs' db s := by
  obtain ⟨k, o, ⟨h1, h2⟩, h3⟩ := hd
  refine ⟨k, o, ⟨?_, ?_⟩, h3⟩
  · rw [← h1]
    apply hashItems_congr
    intro p hp
    simp only [List.mem_append, List.mem_singleton, reduceCtorEq, or_false] at hp
    exact (h p hp).symm
  · rw [← h2]
    apply hashItems_congr
    intro p hp
    simp only [List.mem_singleton, Item.path.injEq] at hp
    rw [hp, ho]

/-! ### The invariant -/

/-- What is left of a list of sub-builders: those that were removed have settled steps only. -/
inductive Shrunk (P : Project) (subs : Nat → List Nat) (S : Nat → Prop) : List Nat → List Nat → Prop
  | nil : Shrunk P subs S [] []
  | keep (m : Nat) (l l' : List Nat) : Shrunk P subs S l l' → Shrunk P subs S (m :: l) (m :: l')
  | drop (m : Nat) (l l' : List Nat) : (∀ i, Part P subs m i → S i) → Shrunk P subs S l l' → Shrunk P subs S (m :: l) l'

theorem Shrunk.refl (S : Nat → Prop) (l : List Nat) : Shrunk P subs0 S l l := by
  induction l with
  | nil => exact .nil
  | cons m l ih => exact .keep m l l ih

theorem Shrunk.mono {S S' : Nat → Prop} (hS : ∀ i, S i → S' i) {l l' : List Nat} (h : Shrunk P subs0 S l l') : Shrunk P subs0 S' l l' := by
  induction h with
  | nil => exact .nil
  | keep m l l' _ ih => exact .keep m l l' ih
  | drop m l l' hm _ ih => exact .drop m l l' (fun i hi => hS i (hm i hi)) ih

theorem Shrunk.mem {S : Nat → Prop} {l l' : List Nat} (h : Shrunk P subs0 S l l') (m : Nat) (hm : m ∈ l') : m ∈ l := by
  induction h with
  | nil => exact hm
  | keep x l l' _ ih =>
    rcases List.mem_cons.1 hm with rfl | hm
    · simp
    · simp [ih hm]
  | drop x l l' _ _ ih => simp [ih hm]

theorem Shrunk.part {S : Nat → Prop} {l l' : List Nat} (h : Shrunk P subs0 S l l') (m i : Nat) (hm : m ∈ l)
    (hi : Part P subs0 m i) : S i ∨ m ∈ l' := by
  induction h with
  | nil => exact absurd hm (List.not_mem_nil)
  | keep x l l' _ ih =>
    rcases List.mem_cons.1 hm with rfl | hm
    · simp
    · rcases ih hm with h | h
      · exact .inl h
      · exact .inr (by simp [h])
  | drop x l l' hx _ ih =>
    rcases List.mem_cons.1 hm with rfl | hm
    · exact .inl (hx i hi)
    · exact ih hm

theorem Shrunk.erase {S : Nat → Prop} {l l' : List Nat} (h : Shrunk P subs0 S l l') (m : Nat) (hm : ∀ i, Part P subs0 m i → S i) :
    Shrunk P subs0 S l (l'.erase m) := by
  induction h with
  | nil => exact .nil
  | keep x l l' h ih =>
    rw [List.erase_cons]
    split
    · rename_i hx
      have : x = m := by simpa using hx
      subst this
      exact .drop x l l' hm h
    · exact .keep x l _ ih
  | drop x l l' hx _ ih => exact .drop x l _ hx ih

/-- The invariant of a build: `S` are steps that are settled. -/
structure Inv (P : Project) (U : Scope) (subs0 : Nat → List Nat) (free : Ghost) (w : World) (S : Nat → Prop) : Prop where
  truth : Truthful P.cfg U w.db
  memory : Remembers P.cfg U free.old w.db
  files : U.files w.fs
  settled : ∀ i, S i → ∃ s, P.node i = some (.step s) ∧ Done P.cfg w.fs w.db s ∧ Covered P S s
  started : ∀ i s, P.node i = some (.step s) → (w.leaf i).future ≠ none → Covered P S s ∧ (w.leaf i).parametersFound = true
  found : ∀ i s, P.node i = some (.step s) → (w.leaf i).parametersFound = true → AllIn w.fs s
  running : ∀ i s, P.node i = some (.step s) → (w.leaf i).future = some .running → w.pending i = s.result w.fs
  ended : ∀ i s, P.node i = some (.step s) → (w.leaf i).future = some (.ended 0) → Current w.fs s
  left : ∀ n, Shrunk P subs0 S (subs0 n) (w.subs n)
  absent : ∀ i s, P.node i = some (.step s) → free i → w.fs s.out ≠ none → Covered P S s
  plain : ∀ i s, P.node i = some (.step s) → s.instant = true → (w.leaf i).future = none
  once : ∀ i s, P.node i = some (.step s) → w.runs i = 0 ∨
    (w.runs i = 1 ∧ (S i ∨ (s.instant = false ∧ (w.leaf i).future ≠ none)))

theorem Covered.mono {S S' : Nat → Prop} (hS : ∀ i, S i → S' i) {s : Step} (h : Covered P S s) : Covered P S' s := by
  intro p hp hm
  obtain ⟨j, t, hj, h1, h2⟩ := h p hp hm
  exact ⟨j, t, hS j hj, h1, h2⟩

variable {w : World} {S : Nat → Prop}

theorem Inv.done_current (hI : Inv P U subs0 free w S) {s : Step} (hU : U.step s) (h : Done P.cfg w.fs w.db s) : Current w.fs s := by
  obtain ⟨k, o, hd, hg⟩ := h
  exact hI.truth s w.fs k o hU hI.files hd hg

/-- Another step is settled. -/
theorem Inv.settle (hI : Inv P U subs0 free w S) {i : Nat} {s : Step} (hn : P.node i = some (.step s)) (hd : Done P.cfg w.fs w.db s)
    (hc : Covered P S s) : Inv P U subs0 free w (fun j => S j ∨ j = i) where
  truth := hI.truth
  memory := hI.memory
  files := hI.files
  settled := by
    rintro j (hj | rfl)
    · obtain ⟨t, h1, h2, h3⟩ := hI.settled j hj
      exact ⟨t, h1, h2, h3.mono (fun _ h => .inl h)⟩
    · exact ⟨s, hn, hd, hc.mono (fun _ h => .inl h)⟩
  started j t hj hf := ⟨(hI.started j t hj hf).1.mono (fun _ h => .inl h), (hI.started j t hj hf).2⟩
  found := hI.found
  running := hI.running
  ended := hI.ended
  left n := (hI.left n).mono (fun _ h => .inl h)
  absent j t hj h1 h2 := (hI.absent j t hj h1 h2).mono (fun _ h => .inl h)
  plain := hI.plain
  once j t hj := by
    rcases hI.once j t hj with h | ⟨h, h' | h'⟩
    · exact .inl h
    · exact .inr ⟨h, .inl (.inl h')⟩
    · exact .inr ⟨h, .inr h'⟩

/-- A step whose inputs are settled writes its file. -/
theorem Inv.write (hs : Sound P U) (hI : Inv P U subs0 free w S) {i : Nat} {s : Step} (hn : P.node i = some (.step s))
    (hc : Covered P S s) (ha : AllIn w.fs s) :
    Inv P U subs0 free { w with fs := put w.fs s.out (some (s.result w.fs)) } S ∧ Current (put w.fs s.out (some (s.result w.fs))) s := by
  have hself : Agree (put w.fs s.out (some (s.result w.fs))) w.fs s := by
    intro p hp
    have : p ≠ s.out := fun h => hs.other i s hn (h ▸ hp)
    simp [put, this]
  have hcur : Current (put w.fs s.out (some (s.result w.fs))) s := by
    rw [current_iff]
    refine ⟨fun p hp => by rw [hself p hp]; exact ha p hp, ?_⟩
    rw [result_congr hself]
    simp [put]
  by_cases hk : Made P S s.out
  · obtain ⟨k, t, hk, hkn, hko⟩ := hk
    have : t = s := hs.twins k i t s hkn hn hko
    subst this
    obtain ⟨t', h1, h2, _⟩ := hI.settled k hk
    rw [hkn] at h1
    obtain rfl : t = t' := by injection h1 with h1; injection h1
    have hcu := (current_iff _ _).1 (hI.done_current (hs.known _ _ hn) h2)
    have : put w.fs t.out (some (t.result w.fs)) = w.fs := by
      funext p
      unfold put
      split
      · rename_i h; rw [h, hcu.2]
      · rfl
    rw [this]
    exact ⟨hI, by rw [current_iff]; exact hcu⟩
  · have hag : ∀ t, Covered P S t → Agree w.fs (put w.fs s.out (some (s.result w.fs))) t := by
      intro t ht p hp
      unfold put
      split
      · rename_i h
        subst h
        exact absurd (ht _ hp ⟨i, s, trivial, hn, rfl⟩) hk
      · rfl
    have hout : ∀ t : Step, t.out ≠ s.out → w.fs t.out = put w.fs s.out (some (s.result w.fs)) t.out := by
      intro t ht
      simp [put, ht]
    have hgrow : ∀ p, w.fs p ≠ none → put w.fs s.out (some (s.result w.fs)) p ≠ none := by
      intro p hp
      unfold put
      split
      · simp
      · exact hp
    refine ⟨?_, hcur⟩
    exact
      { truth := hI.truth
        memory := hI.memory
        files := hs.closed i s w.fs _ hn hI.files (contents_eq ha)
        settled := by
          intro j hj
          obtain ⟨t, h1, h2, h3⟩ := hI.settled j hj
          refine ⟨t, h1, done_congr (hag t h3) (hout t ?_) h2, h3⟩
          intro he
          exact hk ⟨j, t, hj, h1, he⟩
        started := hI.started
        found := fun j t hj hf p hp => hgrow p (hI.found j t hj hf p hp)
        running := by
          intro j t hj hf
          rw [← result_congr (hag t (hI.started j t hj (by rw [hf]; simp)).1)]
          exact hI.running j t hj hf
        ended := by
          intro j t hj hf
          by_cases he : t.out = s.out
          · have : t = s := hs.twins j i t s hj hn he
            subst this
            exact hcur
          · have hc := (current_iff _ _).1 (hI.ended j t hj hf)
            have hag' := hag t (hI.started j t hj (by rw [hf]; simp)).1
            refine (current_iff _ _).2 ⟨fun p hp => hgrow p (hc.1 p hp), ?_⟩
            show put w.fs s.out _ t.out = _
            rw [← hout t he, hc.2, result_congr hag']
        left := hI.left
        absent := by
          intro j t hj h1 h2
          by_cases he : t.out = s.out
          · have : t = s := hs.twins j i t s hj hn he
            subst this
            exact hc
          · refine hI.absent j t hj h1 ?_
            rw [hout t he]; exact h2
        plain := hI.plain
        once := hI.once }

/-- A current step is recorded. -/
theorem Inv.record (hs : Sound P U) (hI : Inv P U subs0 free w S) {s : Step} (hU : U.step s) {k o : Bytes}
    (hd : Digests P.cfg w.fs s k o) (hc : Current w.fs s) : Inv P U subs0 free { w with db := w.db.set k o } S where
  files := hI.files
  truth := by
    intro t fs k' o' ht hfs hd' hg
    by_cases hk : k' = k
    · subst hk
      have : (w.db.set k' o).get? k' = some o := Dict.get?_set_self _ _ _
      rw [show ({ w with db := w.db.set k' o } : World).db = w.db.set k' o from rfl, this] at hg
      exact (hs.faithful s t w.fs fs k' o o' hU ht hI.files hfs hd hd' hc).2 (Option.some.inj hg)
    · have : (w.db.set k o).get? k' = w.db.get? k' := by rw [Dict.get?_set, if_neg (Ne.symm hk)]
      rw [show ({ w with db := w.db.set k o } : World).db = w.db.set k o from rfl, this] at hg
      exact hI.truth t fs k' o' ht hfs hd' hg
  memory := by
    intro t fs k' o' ht hfs hd' hg
    have hg' := hI.memory t fs k' o' ht hfs hd' hg
    show (w.db.set k o).get? k' = some o'
    by_cases hk : k' = k
    · subst hk
      rw [Dict.get?_set_self, (hs.faithful s t w.fs fs k' o o' hU ht hI.files hfs hd hd' hc).1 (hI.truth t fs k' o' ht hfs hd' hg')]
    · rw [Dict.get?_set, if_neg (Ne.symm hk)]
      exact hg'
  settled := by
    intro j hj
    obtain ⟨t, h1, ⟨k', o', hd', hg⟩, h3⟩ := hI.settled j hj
    refine ⟨t, h1, ⟨k', o', hd', ?_⟩, h3⟩
    by_cases hk : k' = k
    · subst hk
      have : (w.db.set k' o).get? k' = some o := Dict.get?_set_self _ _ _
      have ht := hI.truth t w.fs k' o' (hs.known _ _ h1) hI.files hd' hg
      rw [show ({ w with db := w.db.set k' o } : World).db = w.db.set k' o from rfl, this,
        (hs.faithful s t w.fs w.fs k' o o' hU (hs.known _ _ h1) hI.files hI.files hd hd' hc).1 ht]
    · have : (w.db.set k o).get? k' = w.db.get? k' := by rw [Dict.get?_set, if_neg (Ne.symm hk)]
      rw [show ({ w with db := w.db.set k o } : World).db = w.db.set k o from rfl, this, hg]
  started := hI.started
  found := hI.found
  running := hI.running
  ended := hI.ended
  left := hI.left
  absent := hI.absent
  plain := hI.plain
  once := hI.once

/-- A composite builder records its own decision. -/
theorem Inv.groupRecord (hI : Inv P U subs0 free w S) {k o : Bytes} (hs : Sound P U)
    (hk : ∀ s fs, U.step s → U.files fs → P.cfg.hashItems fs (s.parameters ++ [.other s.action]) ≠ some k) :
    Inv P U subs0 free { w with db := w.db.set k o } S where
  files := hI.files
  truth := by
    intro t fs k' o' ht hfs hd' hg
    have hne : k ≠ k' := fun h => hk t fs ht hfs (h ▸ hd'.1)
    have : (w.db.set k o).get? k' = w.db.get? k' := by rw [Dict.get?_set, if_neg hne]
    rw [show ({ w with db := w.db.set k o } : World).db = w.db.set k o from rfl, this] at hg
    exact hI.truth t fs k' o' ht hfs hd' hg
  memory := by
    intro t fs k' o' ht hfs hd' hg
    have hne : k ≠ k' := fun h => hk t fs ht hfs (h ▸ hd'.1)
    show (w.db.set k o).get? k' = some o'
    rw [Dict.get?_set, if_neg hne]
    exact hI.memory t fs k' o' ht hfs hd' hg
  settled := by
    intro j hj
    obtain ⟨t, h1, ⟨k', o', hd', hg⟩, h3⟩ := hI.settled j hj
    refine ⟨t, h1, ⟨k', o', hd', ?_⟩, h3⟩
    have hne : k ≠ k' := fun h => hk t w.fs (hs.known _ _ h1) hI.files (h ▸ hd'.1)
    have : (w.db.set k o).get? k' = w.db.get? k' := by rw [Dict.get?_set, if_neg hne]
    rw [show ({ w with db := w.db.set k o } : World).db = w.db.set k o from rfl, this, hg]
  started := hI.started
  found := hI.found
  running := hI.running
  ended := hI.ended
  left := hI.left
  absent := hI.absent
  plain := hI.plain
  once := hI.once

/-- What an operation may do: more steps are settled, and those that were are not run. -/
structure Next (P : Project) (U : Scope) (subs0 : Nat → List Nat) (free : Ghost) (w : World) (S : Nat → Prop) (w' : World)
    (S' : Nat → Prop) : Prop where
  more : ∀ i, S i → S' i
  inv : Inv P U subs0 free w' S'
  kept : ∀ i, S i → w'.runs i = w.runs i

theorem Next.refl (hI : Inv P U subs0 free w S) : Next P U subs0 free w S w S := ⟨fun _ h => h, hI, fun _ _ => rfl⟩

theorem Next.trans {w1 w2 w3 : World} {S1 S2 S3 : Nat → Prop} (h : Next P U subs0 free w1 S1 w2 S2) (h' : Next P U subs0 free w2 S2 w3 S3) :
    Next P U subs0 free w1 S1 w3 S3 :=
  ⟨fun i hi => h'.more i (h.more i hi), h'.inv, fun i hi => by rw [h'.kept i (h.more i hi), h.kept i hi]⟩

/-- The command of a step ends. -/
theorem Inv.end_ (hs : Sound P U) (hI : Inv P U subs0 free w S) (e : Nat × Future) : Next P U subs0 free w S (P.end_ w e) S := by
  obtain ⟨i, f⟩ := e
  unfold Project.end_
  by_cases hr : (w.leaf i).future = some .running
  · simp only
    rw [if_pos hr]
    cases hn : P.node i with
    | none => exact .refl hI
    | some nd =>
      cases nd with
      | group g => exact .refl hI
      | step s =>
        have hst := hI.started i s hn (by rw [hr]; simp)
        have hall := hI.found i s hn hst.2
        simp only
        refine ⟨fun _ h => h, ?_, fun _ _ => rfl⟩
        -- the file is written first
        have key : ∀ w' : World, Inv P U subs0 free w' S → w'.leaf = w.leaf → (f = .ended 0 → Current w'.fs s) →
            (w'.pending = w.pending) → Inv P U subs0 free { w' with leaf := put w'.leaf i { w'.leaf i with future := some f } } S := by
          intro w' hI' hl hcur hpend
          exact
            { truth := hI'.truth
              memory := hI'.memory
              files := hI'.files
              settled := hI'.settled
              started := by
                intro j t hj hf
                by_cases he : j = i
                · subst he
                  rw [hn] at hj
                  injection hj with hj; injection hj with hj; subst hj
                  exact ⟨hst.1, by simp only [put, if_true, hl]; exact hst.2⟩
                · simp only [put, if_neg he] at hf ⊢
                  exact hI'.started j t hj hf
              found := by
                intro j t hj hf
                apply hI'.found j t hj
                by_cases he : j = i
                · subst he; simpa [put] using hf
                · simpa [put, he] using hf
              running := by
                intro j t hj hf
                by_cases he : j = i
                · subst he
                  apply hI'.running j t hj
                  rw [hl]; exact hr
                · simp only [put, if_neg he] at hf
                  exact hI'.running j t hj hf
              ended := by
                intro j t hj hf
                by_cases he : j = i
                · subst he
                  rw [hn] at hj
                  injection hj with hj; injection hj with hj; subst hj
                  simp only [put, if_true, Option.some.injEq] at hf
                  exact hcur hf
                · simp only [put, if_neg he] at hf
                  exact hI'.ended j t hj hf
              left := hI'.left
              absent := hI'.absent
              plain := by
                intro j t hj hin
                by_cases he : j = i
                · subst he
                  have := hI'.plain j t hj hin
                  rw [hl, hr] at this
                  cases this
                · simp only [put, if_neg he]
                  exact hI'.plain j t hj hin
              once := by
                intro j t hj
                rcases hI'.once j t hj with h | ⟨h, h' | h'⟩
                · exact .inl h
                · exact .inr ⟨h, .inl h'⟩
                · refine .inr ⟨h, .inr ⟨h'.1, ?_⟩⟩
                  by_cases he : j = i
                  · subst he; simp [put]
                  · simpa [put, he] using h'.2 }
        by_cases hf : f = .ended 0
        · subst hf
          obtain ⟨h1, h2⟩ := hI.write hs hn hst.1 hall
          have := key _ h1 rfl (fun _ => h2) rfl
          rw [if_pos rfl, hI.running i s hn hr]
          exact this
        · rw [if_neg hf]
          exact key w hI rfl (fun h => absurd h hf) rfl
  · simp only
    rw [if_neg hr]
    exact .refl hI

theorem Inv.tick (hs : Sound P U) (hI : Inv P U subs0 free w S) : Next P U subs0 free w S (P.tick w) S := by
  unfold Project.tick
  have : ∀ (l : List (Nat × Future)) (w : World), Inv P U subs0 free w S → Next P U subs0 free w S (l.foldl P.end_ w) S := by
    intro l
    induction l with
    | nil => exact fun w h => .refl h
    | cons e l ih =>
      intro w h
      have h1 := h.end_ hs e
      exact h1.trans (ih _ h1.inv)
  obtain ⟨h1, h2, h3⟩ := this (P.ends w.clock) w hI
  exact ⟨h1, ⟨h2.truth, h2.memory, h2.files, h2.settled, h2.started, h2.found, h2.running, h2.ended, h2.left, h2.absent, h2.plain, h2.once⟩, h3⟩

/-- The parameters of a step were found. -/
theorem Inv.note (hI : Inv P U subs0 free w S) {i : Nat} {s : Step} (hn : P.node i = some (.step s)) (l : Leaf)
    (hl : l.future = (w.leaf i).future) (ha : l.parametersFound = true → AllIn w.fs s)
    (hm : (w.leaf i).parametersFound = true → l.parametersFound = true) :
    Inv P U subs0 free { w with leaf := put w.leaf i l } S := by
  have hfut : ∀ j, (put w.leaf i l j).future = (w.leaf j).future := by
    intro j
    unfold put
    split
    · rename_i h; rw [h, hl]
    · rfl
  exact
    { truth := hI.truth
      memory := hI.memory
      files := hI.files
      settled := hI.settled
      started := by
        intro j t hj hf
        rw [show ({ w with leaf := put w.leaf i l } : World).leaf j = put w.leaf i l j from rfl, hfut] at hf
        refine ⟨(hI.started j t hj hf).1, ?_⟩
        show (put w.leaf i l j).parametersFound = true
        unfold put
        split
        · rename_i h; subst h; exact hm (hI.started j t hj hf).2
        · exact (hI.started j t hj hf).2
      found := by
        intro j t hj hf
        by_cases he : j = i
        · subst he
          rw [hn] at hj
          injection hj with hj; injection hj with hj; subst hj
          exact ha (by simpa [put] using hf)
        · exact hI.found j t hj (by simpa [put, he] using hf)
      running := fun j t hj hf => hI.running j t hj (by rw [← hfut j]; exact hf)
      ended := fun j t hj hf => hI.ended j t hj (by rw [← hfut j]; exact hf)
      left := hI.left
      absent := hI.absent
      plain := by
        intro j t hj hin
        rw [show ({ w with leaf := put w.leaf i l } : World).leaf j = put w.leaf i l j from rfl, hfut]
        exact hI.plain j t hj hin
      once := by
        intro j t hj
        rw [show ({ w with leaf := put w.leaf i l } : World).leaf j = put w.leaf i l j from rfl, hfut]
        exact hI.once j t hj }

theorem see_eq (c : Cfg) (fs : FS) (db : Dict Bytes Bytes) (s : Step) :
    ∃ sn, see c fs db s.parameters s.action s.out = some sn ∧ (sn.missing = false → AllIn fs s ∧ s.parameters ≠ []) ∧
      (AllIn fs s → s.parameters ≠ [] → sn.missing = false) ∧
      (sn.needed = false ↔ Done c fs db s) ∧ (sn.outExists = true ↔ fs s.out ≠ none) := by
  obtain ⟨b, h1, h2⟩ := ask_eq c fs db s
  unfold see
  rw [show s.parameters ++ [Item.other s.action] = s.inputs from rfl, h1]
  refine ⟨_, rfl, ?_, ?_, h2, ?_⟩
  · intro h
    simp only [Bool.or_eq_false_iff, List.isEmpty_eq_false_iff, List.any_eq_false] at h
    refine ⟨fun p hp hn => ?_, h.1⟩
    have := h.2 _ hp
    simp [missing, hn] at this
  · intro h hne
    simp only [Bool.or_eq_false_iff, List.isEmpty_eq_false_iff, List.any_eq_false]
    refine ⟨hne, fun it hit => ?_⟩
    cases it with
    | other b => simp [missing]
    | path p =>
      have := h p hit
      simpa [missing] using this
  · simp [Option.isSome_iff_ne_none]

theorem status_cases (l : Leaf) (sn : Seen) :
    (l.parametersFound = false ∧ sn.missing = true ∧ l.status sn = (.ok .missingParameters, l, false)) ∨
    ∃ l' : Leaf, l'.future = l.future ∧ l'.parametersFound = true ∧ (l.parametersFound = true ∨ sn.missing = false) ∧
      ((sn.needed = false ∧ l.status sn = (.ok .done, l', false)) ∨
       (sn.needed = true ∧ l.future = some .running ∧ l.status sn = (.ok .building, l', false)) ∨
       (sn.needed = true ∧ l.future = some .cancelled ∧ l.status sn = (.ok .cancelled, l', false)) ∨
       (sn.needed = true ∧ l.future = some .raised ∧ l.status sn = (.error .exception, l', false)) ∨
       (sn.needed = true ∧ l.future = some (.ended 0) ∧ sn.outExists = true ∧ l.status sn = (.ok .done, l', true)) ∨
       (sn.needed = true ∧ l.future = some (.ended 0) ∧ sn.outExists = false ∧ l.status sn = (.ok .missingOutfile, l', false)) ∨
       (sn.needed = true ∧ (∃ rc, rc ≠ 0 ∧ l.future = some (.ended rc)) ∧ l.status sn = (.error .buildError, l', false)) ∨
       (sn.needed = true ∧ l.future = none ∧ l.status sn = (.ok .ready, l', false))) := by
  obtain ⟨fut, pf, sub⟩ := l
  obtain ⟨mi, ne, oe⟩ := sn
  have key : (pf = false ∧ mi = true) ∨ ∃ l' : Leaf, l'.future = fut ∧ l'.parametersFound = true ∧ (pf = true ∨ mi = false) ∧
      Leaf.missingParameters ⟨fut, pf, sub⟩ ⟨mi, ne, oe⟩ = (false, l') := by
    cases pf with
    | true => exact .inr ⟨⟨fut, true, sub⟩, rfl, rfl, .inl rfl, rfl⟩
    | false =>
      cases mi with
      | true => exact .inl ⟨rfl, rfl⟩
      | false => exact .inr ⟨⟨fut, true, sub⟩, rfl, rfl, .inr rfl, rfl⟩
  rcases key with ⟨rfl, rfl⟩ | ⟨l', h1, h2, h3, h4⟩
  · exact .inl ⟨rfl, rfl, rfl⟩
  · refine Or.inr ⟨l', h1, h2, h3, ?_⟩
    unfold Leaf.status
    rw [h4]
    simp only [h1]
    cases ne with
    | false => exact .inl ⟨rfl, rfl⟩
    | true =>
      refine .inr ?_
      simp only [Bool.true_eq_false, if_false, true_and]
      cases fut with
      | none => simp
      | some f =>
        cases f with
        | running => simp
        | cancelled => simp
        | raised => simp
        | ended rc =>
          by_cases hrc : rc = 0
          · subst hrc
            cases oe <;> simp
          · simp [hrc]

/-- The status of a step is asked for. -/
theorem Inv.stepStatus (hs : Sound P U) (hI : Inv P U subs0 free w S) {i : Nat} {s : Step} (hn : P.node i = some (.step s)) :
    ∃ S', Next P U subs0 free w S (P.stepStatus i s w).2 S' ∧
      ((P.stepStatus i s w).1 = .ok .done → (Covered P S s ∨ free i) → S' i) ∧
      ((P.stepStatus i s w).1 = .ok .ready ∨ (P.stepStatus i s w).1 = .ok .building →
        AllIn (P.stepStatus i s w).2.fs s ∧ ¬ S' i ∧ ((P.stepStatus i s w).2.leaf i).parametersFound = true ∧
        ((P.stepStatus i s w).1 = .ok .ready → ((P.stepStatus i s w).2.leaf i).future = none) ∧
        ((P.stepStatus i s w).1 = .ok .building → ((P.stepStatus i s w).2.leaf i).future = some .running)) := by
  have ht := hI.tick hs
  have hI1 := ht.inv
  unfold Project.stepStatus
  generalize P.tick w = w1 at ht hI1 ⊢
  obtain ⟨sn, hsee, hmis, _, hneed, hout⟩ := see_eq P.cfg w1.fs w1.db s
  simp only [Leaf.statusIn, hsee, Option.bind_some]
  have hnotS : sn.needed = true → ¬ S i := by
    intro h hS
    obtain ⟨t, h1, h2, _⟩ := hI1.settled i hS
    rw [hn] at h1
    injection h1 with h1; injection h1 with h1; subst h1
    rw [hneed.2 h2] at h
    cases h
  have hput : ∀ l : Leaf, put w1.leaf i l i = l := fun l => by simp [put]
  rcases status_cases (w1.leaf i) sn with ⟨_, _, h3⟩ | ⟨l', hl1, hl2, hl3, hc⟩
  · rw [h3]
    refine ⟨S, ht.trans ⟨fun _ h => h, hI1.note hn _ rfl (hI1.found i s hn) (fun h => h), fun _ _ => rfl⟩, ?_, ?_⟩
    · intro h; cases h
    · rintro (h | h) <;> cases h
  · have hall : AllIn w1.fs s := by
      rcases hl3 with h | h
      · exact hI1.found i s hn h
      · exact (hmis h).1
    have hnote : Next P U subs0 free w S { w1 with leaf := put w1.leaf i l' } S :=
      ht.trans ⟨fun _ h => h, hI1.note hn l' hl1 (fun _ => hall) (fun _ => hl2), fun _ _ => rfl⟩
    rcases hc with ⟨h1, h2⟩ | ⟨h1, hf, h2⟩ | ⟨h1, hf, h2⟩ | ⟨h1, hf, h2⟩ | ⟨h1, hf, ho, h2⟩ | ⟨h1, hf, ho, h2⟩ | ⟨h1, hf, h2⟩ | ⟨h1, hf, h2⟩
    · -- not needed
      rw [h2]
      simp only [Bool.false_eq_true, if_false]
      have hd := hneed.1 h1
      by_cases hcov : Covered P S s
      · exact ⟨_, hnote.trans ⟨fun _ h => .inl h, hnote.inv.settle hn hd hcov, fun _ _ => rfl⟩, fun _ _ => .inr rfl,
          by rintro (h | h) <;> cases h⟩
      · refine ⟨S, hnote, ?_, by rintro (h | h) <;> cases h⟩
        rintro _ (h | h)
        · exact absurd h hcov
        · obtain ⟨k, o, hdd, _⟩ := hd
          exact absurd (hI1.absent i s hn h (digests_there hdd).2) hcov
    · rw [h2]
      simp only [Bool.false_eq_true, if_false]
      refine ⟨S, hnote, ?_, fun _ => ⟨hall, hnotS h1, ?_, ?_, ?_⟩⟩
      · intro h; cases h
      · rw [hput]; exact hl2
      · intro h; cases h
      · intro _; rw [hput, hl1]; exact hf
    · rw [h2]
      simp only [Bool.false_eq_true, if_false]
      exact ⟨S, hnote, fun h => (by cases h), by rintro (h | h) <;> cases h⟩
    · rw [h2]
      simp only [Bool.false_eq_true, if_false]
      exact ⟨S, hnote, fun h => (by cases h), by rintro (h | h) <;> cases h⟩
    · -- recorded
      rw [h2]
      simp only [if_true]
      obtain ⟨k, o, hdd⟩ := digests_of_there P.cfg hall (hout.1 ho)
      rw [show s.parameters ++ [Item.other s.action] = s.inputs from rfl, record_eq _ _ _ _ hdd]
      simp only [Option.map_some]
      have hcur := hI1.ended i s hn hf
      have hcov := (hI1.started i s hn (by rw [hf]; simp)).1
      have hr := hnote.inv.record hs (hs.known _ _ hn) hdd hcur
      have hd : Done P.cfg w1.fs (w1.db.set k o) s := ⟨k, o, hdd, Dict.get?_set_self _ _ _⟩
      exact ⟨_, hnote.trans ⟨fun _ h => .inl h, hr.settle hn hd hcov, fun _ _ => rfl⟩, fun _ _ => .inr rfl,
        by rintro (h | h) <;> cases h⟩
    · rw [h2]
      simp only [Bool.false_eq_true, if_false]
      exact ⟨S, hnote, fun h => (by cases h), by rintro (h | h) <;> cases h⟩
    · rw [h2]
      simp only [Bool.false_eq_true, if_false]
      exact ⟨S, hnote, fun h => (by cases h), by rintro (h | h) <;> cases h⟩
    · rw [h2]
      simp only [Bool.false_eq_true, if_false]
      refine ⟨S, hnote, ?_, fun _ => ⟨hall, hnotS h1, ?_, ?_, ?_⟩⟩
      · intro h; cases h
      · rw [hput]; exact hl2
      · intro _; rw [hput, hl1]; exact hf
      · intro h; cases h

/-- A step with settled inputs is run. -/
theorem Inv.run (hs : Sound P U) (hI : Inv P U subs0 free w S) {i : Nat} {s : Step} (hn : P.node i = some (.step s))
    (hc : Covered P S s) (ha : AllIn w.fs s) (hS : ¬ S i) (hp : (w.leaf i).parametersFound = true) :
    ∃ S', Next P U subs0 free w S (P.run i s w) S' ∧ (s.instant = true → S' i) := by
  unfold Project.run
  have hruns : (w.leaf i).future = none → w.runs i = 0 := by
    intro h
    rcases hI.once i s hn with h' | ⟨_, h' | h'⟩
    · exact h'
    · exact absurd h' hS
    · exact absurd h h'.2
  have hkept : ∀ j, S j → put w.runs i (w.runs i + 1) j = w.runs j := by
    intro j hj
    have : j ≠ i := fun h => hS (h ▸ hj)
    simp [put, this]
  by_cases hin : s.instant = true
  · rw [if_pos hin]
    have hfn := hI.plain i s hn hin
    obtain ⟨h1, h2⟩ := hI.write hs hn hc ha
    have hcu := (current_iff _ _).1 h2
    obtain ⟨k, o, hdd⟩ := digests_of_there P.cfg hcu.1 (by rw [hcu.2]; simp)
    have hr := h1.record hs (hs.known _ _ hn) hdd h2
    have hd : Done P.cfg (put w.fs s.out (some (s.result w.fs))) (w.db.set k o) s := ⟨k, o, hdd, Dict.get?_set_self _ _ _⟩
    have hr' := hr.settle hn hd hc
    simp only [Project.stepRecord]
    rw [record_eq _ _ _ _ hdd]
    simp only [Option.map_some, Option.getD_some]
    refine ⟨_, ⟨fun _ h => .inl h, ⟨hr'.truth, hr'.memory, hr'.files, hr'.settled, hr'.started, hr'.found, hr'.running, hr'.ended, hr'.left, hr'.absent, hr'.plain, ?_⟩, hkept⟩, fun _ => .inr rfl⟩
    intro j t hj
    by_cases he : j = i
    · subst he
      exact .inr ⟨by simp [put, hruns hfn], .inl (.inr rfl)⟩
    · simp only [put, if_neg he]
      exact hr'.once j t hj
  · rw [if_neg hin]
    cases hfut : (w.leaf i).future with
    | some f => exact ⟨S, .refl hI, fun h => absurd h hin⟩
    | none =>
      simp only
      refine ⟨S, ⟨fun _ h => h, ?_, hkept⟩, fun h => absurd h hin⟩
      have hl : (w.leaf i).runCmd = { w.leaf i with future := some .running, submitted := (w.leaf i).submitted + 1 } := by
        unfold Leaf.runCmd; rw [hfut]
      exact
        { truth := hI.truth
          memory := hI.memory
          files := hI.files
          settled := hI.settled
          started := by
            intro j t hj hf
            by_cases he : j = i
            · subst he
              rw [hn] at hj
              injection hj with hj; injection hj with hj; subst hj
              exact ⟨hc, by simp [put, hl, hp]⟩
            · simp only [put, if_neg he] at hf ⊢
              exact hI.started j t hj hf
          found := by
            intro j t hj hf
            by_cases he : j = i
            · subst he
              rw [hn] at hj
              injection hj with hj; injection hj with hj; subst hj
              exact ha
            · simp only [put, if_neg he] at hf
              exact hI.found j t hj hf
          running := by
            intro j t hj hf
            by_cases he : j = i
            · subst he
              rw [hn] at hj
              injection hj with hj; injection hj with hj; subst hj
              simp [put]
            · simp only [put, if_neg he] at hf ⊢
              exact hI.running j t hj hf
          ended := by
            intro j t hj hf
            by_cases he : j = i
            · subst he
              simp [put, hl] at hf
            · simp only [put, if_neg he] at hf
              exact hI.ended j t hj hf
          left := hI.left
          absent := hI.absent
          plain := by
            intro j t hj hi'
            by_cases he : j = i
            · subst he
              rw [hn] at hj
              injection hj with hj; injection hj with hj; subst hj
              exact absurd hi' hin
            · simp only [put, if_neg he]
              exact hI.plain j t hj hi'
          once := by
            intro j t hj
            by_cases he : j = i
            · subst he
              rw [hn] at hj
              injection hj with hj; injection hj with hj; subst hj
              exact .inr ⟨by simp [put, hruns hfut], .inr ⟨by simpa using hin, by simp [put, hl]⟩⟩
            · simp only [put, if_neg he]
              exact hI.once j t hj }

/-- A step with settled inputs is built. -/
theorem Inv.stepBuild (hs : Sound P U) (hI : Inv P U subs0 free w S) {i : Nat} {s : Step} (hn : P.node i = some (.step s))
    (hc : Covered P S s) : ∃ S', Next P U subs0 free w S (P.stepBuild i s w).2 S' := by
  obtain ⟨S1, h1, _, h3⟩ := hI.stepStatus hs hn
  unfold Project.stepBuild
  generalize P.stepStatus i s w = q at h1 h3 ⊢
  obtain ⟨r, w1⟩ := q
  cases r with
  | error e => exact ⟨S1, h1⟩
  | ok st =>
    simp only at h1 h3 ⊢
    have key : ∃ S2, Next P U subs0 free w S (if st = .building ∨ st = .ready then P.run i s w1 else w1) S2 := by
      by_cases hst : st = .building ∨ st = .ready
      · rw [if_pos hst]
        obtain ⟨ha, hS, hp, _⟩ := h3 (by rcases hst with rfl | rfl <;> simp)
        obtain ⟨S2, h2, _⟩ := h1.inv.run hs hn (hc.mono h1.more) ha hS hp
        exact ⟨S2, h1.trans h2⟩
      · rw [if_neg hst]; exact ⟨S1, h1⟩
    obtain ⟨S2, h2⟩ := key
    obtain ⟨S3, h4, _⟩ := h2.inv.stepStatus hs hn
    generalize P.stepStatus i s (if st = .building ∨ st = .ready then P.run i s w1 else w1) = q at h4 ⊢
    obtain ⟨r, w2⟩ := q
    cases r with
    | error e => exact ⟨S3, h2.trans h4⟩
    | ok st => exact ⟨S3, h2.trans h4⟩

end Verif.Build
