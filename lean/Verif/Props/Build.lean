import Verif.Lemmas.BuildStop
import Verif.Spec.Build

/-!
# C74: the build of a document

The theorems are about `Project.build`, the loop that builds a document, for any builders, any nesting of them, any times at which
commands end, any exit codes, and any number of rounds.
-/

namespace Verif.Build

open Verif Verif.Decider Verif.Builder

/-- What is known after any number of rounds of a build. -/
theorem Begins.next {P : Project} {U : Scope} {root : Nat} {w : World} {S : Nat → Prop} (hb : Begins P U root w S)
    (ht : Truthful P.cfg U w.db) (depth rounds : Nat) :
    ∃ S', Next P U w.subs ⟨fun i => ∀ s, P.node i = some (.step s) → w.fs s.out = none ∨ S i, w.db⟩ w S (P.build depth root rounds w).2 S' ∧
      ((P.build depth root rounds w).1 = some (.ok .done) → ∀ i, Part P w.subs root i → S' i) :=
  build_next hb.sound (fun n g hn hc hp a m b hl ha i hi s hs => hb.clears n g hn hc hp a m b hl ha i s hi hs) depth root rounds w S
    (hb.inv ht) (hb.guarded.mono (fun _ h => absurd h id))

/-- **C74.** The database never lies: after any builds, whether they ended or not and with any result, and any edits of files, a step
whose digests are recorded is current. -/
theorem C74_truthful {c : Cfg} {U : Scope} {fs : FS} {db : Dict Bytes Bytes} (h : Past c U fs db) : Truthful c U db := by
  induction h with
  | new => intro s fs k o _ _ _ hg; cases hg
  | edit fs fs' db _ _ ih => exact ih
  | forget fs db db' _ hd ih => exact fun s fs k o hs hf h hg => ih s fs k o hs hf h (hd k o hg)
  | build P depth root rounds w S hc hb _ ih =>
    subst hc
    obtain ⟨S', h1, _⟩ := hb.next ih depth rounds
    exact h1.inv.truth
  | stopped P stop depth root rounds w S hc hb _ ih =>
    subst hc
    exact (hb.adds.stopped ih stop depth rounds).1

theorem Past.files {c : Cfg} {U : Scope} {fs : FS} {db : Dict Bytes Bytes} (h : Past c U fs db) : U.files fs := by
  induction h with
  | new _ h => exact h
  | edit _ _ _ _ h => exact h
  | forget _ _ _ _ _ ih => exact ih
  | build P depth root rounds w S hc hb hp _ =>
    subst hc
    obtain ⟨S', h1, _⟩ := hb.next (C74_truthful hp) depth rounds
    exact h1.inv.files
  | stopped P stop depth root rounds w S hc hb hp _ =>
    subst hc
    exact (hb.adds.stopped (C74_truthful hp) stop depth rounds).2

/-- **C74.** If a build reports 'done', then the file of each step of its builders is what the tool of that step makes from the files
there are, and the digests of each step are recorded. -/
theorem C74_current {P : Project} {U : Scope} {root : Nat} {w : World} {S : Nat → Prop} (hp : Past P.cfg U w.fs w.db)
    (hb : Begins P U root w S) (depth rounds : Nat) (hd : (P.build depth root rounds w).1 = some (.ok .done)) (i : Nat) (s : Step)
    (hi : Part P w.subs root i) (hn : P.node i = some (.step s)) :
    Current (P.build depth root rounds w).2.fs s ∧
      ∃ k o, Digests P.cfg (P.build depth root rounds w).2.fs s k o ∧ (P.build depth root rounds w).2.db.get? k = some o := by
  obtain ⟨S', h1, h2⟩ := hb.next (C74_truthful hp) depth rounds
  obtain ⟨t, h3, h4, _⟩ := h1.inv.settled i (h2 hd i hi)
  rw [hn] at h3
  injection h3 with h3; injection h3 with h3; subst h3
  exact ⟨h1.inv.done_current (hb.sound.known _ _ hn) h4, h4⟩

/-- **C74.** No step is run twice in a build. -/
theorem C74_once {P : Project} {U : Scope} {root : Nat} {w : World} {S : Nat → Prop} (hp : Past P.cfg U w.fs w.db)
    (hb : Begins P U root w S) (depth rounds : Nat) (i : Nat) (s : Step) (hn : P.node i = some (.step s)) :
    (P.build depth root rounds w).2.runs i ≤ 1 := by
  obtain ⟨S', h1, _⟩ := hb.next (C74_truthful hp) depth rounds
  rcases h1.inv.once i s hn with h | ⟨h, _⟩ <;> omega

/-- **C74.** A step is not run if its digests are recorded and those of all steps that it depends on are. -/
theorem C74_not_needed {P : Project} {U : Scope} {root : Nat} {w : World} {S : Nat → Prop} (hp : Past P.cfg U w.fs w.db)
    (hb : Begins P U root w S) (depth rounds : Nat) (i : Nat) (hi : S i) : (P.build depth root rounds w).2.runs i = 0 := by
  obtain ⟨S', h1, _⟩ := hb.next (C74_truthful hp) depth rounds
  rw [h1.kept i hi]
  exact (hb.new i).2

/-- **C74.** After a build that reported 'done', if the builders are made again and nothing is changed, another build runs no step. -/
theorem C74_again {P : Project} {U : Scope} {root : Nat} {w : World} {S : Nat → Prop} (hp : Past P.cfg U w.fs w.db)
    (hb : Begins P U root w S) (depth rounds : Nat) (hd : (P.build depth root rounds w).1 = some (.ok .done))
    (hall : ∀ i s, P.node i = some (.step s) → Part P w.subs root i) (w' : World)
    (hfs : w'.fs = (P.build depth root rounds w).2.fs) (hdb : w'.db = (P.build depth root rounds w).2.db) (hsub : w'.subs = w.subs)
    (hnew : New w') (depth' rounds' i : Nat) (hi : Part P w.subs root i) : (P.build depth' root rounds' w').2.runs i = 0 := by
  obtain ⟨S', h1, h2⟩ := hb.next (C74_truthful hp) depth rounds
  have hS := h2 hd
  have hp' : Past P.cfg U w'.fs w'.db := by
    rw [hfs, hdb]
    exact .build P depth root rounds w S rfl hb hp
  have hb' : Begins P U root w' S' :=
    { sound := hb.sound
      files := by rw [hfs]; exact h1.inv.files
      new := hnew
      guarded := by rw [hsub]; exact hb.guarded
      upToDate := by
        intro j hj
        obtain ⟨s, h3, ⟨k, o, h4, h5⟩, h6⟩ := h1.inv.settled j hj
        exact ⟨s, k, o, h3, by rw [hfs]; exact h4, by rw [hdb]; exact h5, h6⟩
      clears := fun n g _ _ _ a m b _ _ j s _ hs => .inr (hS j (hall j s hs)) }
  exact C74_not_needed hp' hb' depth' rounds' i (hS i hi)

/-- **C74.** A build changes no file that no step makes. -/
theorem C74_sources (P : Project) (depth root rounds : Nat) (w : World) (p : Str) (hp : ¬ Made P (fun _ => True) p) :
    (P.build depth root rounds w).2.fs p = w.fs p := build_keeps sources_rel depth root rounds w p hp

/-- Files that are made from the same sources are the same. -/
theorem same_outputs {P : Project} {subs : Nat → List Nat} {fs fs' : FS} {Q : Nat → Prop} {n : Nat} (hg : Guarded P subs Q n)
    (hsrc : ∀ p, ¬ Made P (fun _ => True) p → fs p = fs' p)
    (hQ : ∀ j t, Q j → P.node j = some (.step t) → fs t.out = fs' t.out)
    (hc : ∀ i s, Part P subs n i → P.node i = some (.step s) → Current fs s ∧ Current fs' s) (i : Nat) (s : Step)
    (hi : Part P subs n i) (hn : P.node i = some (.step s)) : fs s.out = fs' s.out := by
  induction hg generalizing i s with
  | step Q n t ht hcov =>
    obtain rfl := part_step ht hi
    rw [hn] at ht
    injection ht with ht; injection ht with ht; subst ht
    obtain ⟨⟨bs, h1, h2⟩, ⟨bs', h3, h4⟩⟩ := hc i s hi hn
    have : bs.map some = bs'.map some := by
      rw [← h1, ← h3]
      refine List.map_congr_left (fun it hit => ?_)
      cases it with
      | other b => rfl
      | path p =>
        simp only
        by_cases hm : Made P (fun _ => True) p
        · obtain ⟨j, t, hj, h5, rfl⟩ := hcov p hit hm
          exact hQ j t hj h5
        · exact hsrc p hm
    rw [h2, h4, List.map_injective_iff.2 (fun a b h => Option.some.inj h) this]
  | parallel Q n g hng _ hm ih =>
    obtain ⟨m, hmem, hi⟩ := part_group hng hi
    exact ih m hmem hQ (fun j t hj ht => hc j t (.group n m j g hng hmem hj) ht) i s hi hn
  | sequence Q n g hng _ hm ih =>
    have key : ∀ (b a : List Nat), subs n = a ++ b → (∀ x ∈ a, ∀ j t, Part P subs x j → P.node j = some (.step t) → fs t.out = fs' t.out) →
        ∀ x ∈ b, ∀ j t, Part P subs x j → P.node j = some (.step t) → fs t.out = fs' t.out := by
      intro b
      induction b with
      | nil => intro a _ _ x hx; cases hx
      | cons y b ihb =>
        intro a hl ha
        have hy : ∀ j t, Part P subs y j → P.node j = some (.step t) → fs t.out = fs' t.out := by
          intro j t hj ht
          refine ih a y b hl ?_ (fun j t hj ht => hc j t (.group n y j g hng (by rw [hl]; simp) hj) ht) j t hj ht
          rintro j t (h | ⟨x, hx, h⟩) ht
          · exact hQ j t h ht
          · exact ha x hx j t h ht
        intro x hx
        rcases List.mem_cons.1 hx with rfl | hx
        · exact hy
        · refine ihb (a ++ [y]) (by simp [hl]) ?_ x hx
          intro z hz
          rcases List.mem_append.1 hz with hz | hz
          · exact ha z hz
          · rw [List.mem_singleton.1 hz]; exact hy
    obtain ⟨m, hmem, hi⟩ := part_group hng hi
    exact key (subs n) [] rfl (fun _ h => by cases h) m hmem i s hi hn

/-- **C74.** A build after any history gives the same files as a build from scratch: two builds of the same builders that report 'done'
leave the same outputs if the files that are not made by steps are the same. -/
theorem C74_clean {P P' : Project} {U U' : Scope} {root : Nat} {w w' : World} {S S' : Nat → Prop} (hp : Past P.cfg U w.fs w.db)
    (hb : Begins P U root w S) (hp' : Past P'.cfg U' w'.fs w'.db) (hb' : Begins P' U' root w' S') (hnode : P'.node = P.node)
    (hsub : w'.subs = w.subs) (depth rounds depth' rounds' : Nat) (hd : (P.build depth root rounds w).1 = some (.ok .done))
    (hd' : (P'.build depth' root rounds' w').1 = some (.ok .done))
    (hsrc : ∀ p, ¬ Made P (fun _ => True) p → w.fs p = w'.fs p)
    (i : Nat) (s : Step) (hi : Part P w.subs root i) (hn : P.node i = some (.step s)) :
    (P.build depth root rounds w).2.fs s.out = (P'.build depth' root rounds' w').2.fs s.out := by
  have hpart : ∀ n j, Part P w.subs n j → Part P' w'.subs n j := by
    intro n j h
    induction h with
    | step n t ht => exact .step n t (by rw [hnode]; exact ht)
    | group n m j g hg hm _ ih => exact .group n m j g (by rw [hnode]; exact hg) (by rw [hsub]; exact hm) ih
  have hsrc' : ∀ p, ¬ Made P (fun _ => True) p → (P.build depth root rounds w).2.fs p = (P'.build depth' root rounds' w').2.fs p := by
    intro p hp
    rw [build_keeps sources_rel depth root rounds w p hp, build_keeps (P := P') sources_rel depth' root rounds' w' p (by
      rintro ⟨j, t, h1, h2, h3⟩
      exact hp ⟨j, t, h1, by rw [← hnode]; exact h2, h3⟩)]
    exact hsrc p hp
  refine same_outputs hb.guarded hsrc' (fun j t h => absurd h id) ?_ i s hi hn
  intro j t hj ht
  exact ⟨(C74_current hp hb depth rounds hd j t hj ht).1,
    (C74_current hp' hb' depth' rounds' hd' j t (hpart _ _ hj) (by rw [hnode]; exact ht)).1⟩

/-! ### A document that is rendered and compiled -/

/-- A hash that does not collide on texts of one byte. -/
def tiny : Cfg := ⟨id, fun b => [b], [], fun _ => false, fun _ => 0⟩

/-- A byte that is no action. -/
def halve (c : UInt8) (bs : List Bytes) : Bytes := [bs.flatten.headD 0 / 2 + c]

def rendering (instant : Bool) : Step := ⟨[.path "doc.dm".toList], [201], "doc.tex".toList, halve 1, instant⟩
def compiling : Step := ⟨[.path "doc.tex".toList], [202], "doc.pdf".toList, halve 2, false⟩

/-- The root builder 0, the builder 1 of a target, and its steps 2 and 3. Commands end at the times given. -/
def paper (clear instant : Bool) (ends : Nat → List (Nat × Future)) : Project where
  cfg := tiny
  node := fun
    | 0 => some (.group ⟨true, true, [], .other []⟩)
    | 1 => some (.group ⟨false, clear, [.path "doc.dm".toList, .other [203]], .path "doc.pdf".toList⟩)
    | 2 => some (.step (rendering instant))
    | 3 => some (.step compiling)
    | _ => none
  ends := ends

def small : Scope := ⟨fun s => s = rendering true ∨ s = rendering false ∨ s = compiling, fun fs => ∀ p b, fs p = some b → ∃ x, b = [x] ∧ x < 200⟩

def trees : Nat → List Nat
  | 0 => [1]
  | 1 => [2, 3]
  | _ => []

/-- New builders for these files. -/
def anew (fs : FS) (db : Dict Bytes Bytes) : World := ⟨fs, db, fun _ => .new, fun _ => [], fun _ => 0, trees, 0⟩

theorem anew_new (fs : FS) (db : Dict Bytes Bytes) : New (anew fs db) := fun _ => ⟨rfl, rfl⟩

theorem anew_eq (fs : FS) (db : Dict Bytes Bytes) : (anew fs db).fs = fs ∧ (anew fs db).db = db ∧ (anew fs db).subs = trees :=
  ⟨rfl, rfl, rfl⟩

def draft (x : UInt8) (fs : FS) : FS := fun p => if p = "doc.dm".toList then some [x] else fs p

theorem sort_pair (x a : UInt8) (hx : x < 200) (ha : 200 < a) : sortBytes [[x], [a]] = [[x], [a]] := by
  have : x < a := by
    rw [UInt8.lt_iff_toNat_lt] at *
    omega
  simp [sortBytes, insertBytes, bytesLe, this]

/-- The digest of a file and an action. -/
theorem tiny_key {fs : FS} (hf : small.files fs) {p : Str} {a : UInt8} (ha : 200 < a) {k : Bytes}
    (h : tiny.hashItems fs [.path p, .other [a]] = some k) : ∃ x, fs p = some [x] ∧ k = [x, a] := by
  cases hb : fs p with
  | none => simp [Cfg.hashItems, Cfg.fed, hb] at h
  | some b =>
    obtain ⟨x, rfl, hx⟩ := hf p b hb
    refine ⟨x, rfl, ?_⟩
    simp only [Cfg.hashItems, List.mapM_cons, List.mapM_nil, Cfg.fed, hb] at h
    simp [tiny, fileFed, sort_pair x a hx ha] at h
    exact h.symm

/-- The digests of a step with one file. -/
theorem tiny_digests {fs : FS} (hf : small.files fs) {p out : Str} {a : UInt8} (ha : 200 < a) {tool : List Bytes → Bytes} {inst : Bool}
    {k o : Bytes} (h : Digests tiny fs ⟨[.path p], [a], out, tool, inst⟩ k o) :
    ∃ x y, fs p = some [x] ∧ fs out = some [y] ∧ k = [x, a] ∧ o = [y] := by
  obtain ⟨x, h1, h2⟩ := tiny_key hf ha h.1
  cases hc : fs out with
  | none => exact absurd hc (digests_there h).2
  | some c =>
    obtain ⟨y, rfl, hy⟩ := hf out c hc
    refine ⟨x, y, h1, rfl, h2, ?_⟩
    have := h.2
    simp only [Cfg.hashItems, List.mapM_cons, List.mapM_nil, Cfg.fed] at this
    rw [show fs _ = _ from hc] at this
    simp [tiny, fileFed, sortBytes, insertBytes] at this
    exact this.symm

theorem tiny_current {fs : FS} {p out : Str} {a : UInt8} {tool : List Bytes → Bytes} {inst : Bool} {x y : UInt8} (hx : fs p = some [x])
    (hy : fs out = some [y]) : Current fs ⟨[.path p], [a], out, tool, inst⟩ ↔ tool [[x]] = [y] := by
  unfold Current Contents
  simp only [List.map_cons, List.map_nil, hx, hy]
  constructor
  · rintro ⟨bs, h1, h2⟩
    cases bs with
    | nil => simp at h1
    | cons b bs =>
      cases bs with
      | nil => simp at h1; subst h1; exact (Option.some.inj h2).symm
      | cons _ _ => simp at h1
  · intro h
    exact ⟨[[x]], rfl, by rw [h]⟩

theorem small_steps (s : Step) (h : small.step s) : ∃ p a out c inst, 200 < a ∧ (a = 201 ∧ c = 1 ∨ a = 202 ∧ c = 2) ∧
    s = ⟨[.path p], [a], out, halve c, inst⟩ := by
  rcases h with rfl | rfl | rfl
  · exact ⟨_, 201, _, 1, _, by decide, by decide, rfl⟩
  · exact ⟨_, 201, _, 1, _, by decide, by decide, rfl⟩
  · exact ⟨_, 202, _, 2, _, by decide, by decide, rfl⟩

theorem paper_sound (clear instant : Bool) (ends : Nat → List (Nat × Future)) : Sound (paper clear instant ends) small where
  known i s h := by
    match i, h with
    | 2, h => cases instant <;> (injection h with h; injection h with h; subst h; simp [small])
    | 3, h => injection h with h; injection h with h; subst h; simp [small]
  closed i s fs bs hn hf hc p b hb := by
    simp only at hb
    split at hb
    · have : ∃ c, c ≤ 2 ∧ s.tool = halve c := by
        match i, hn with
        | 2, h => injection h with h; injection h with h; subst h; exact ⟨1, by decide, rfl⟩
        | 3, h => injection h with h; injection h with h; subst h; exact ⟨2, by decide, rfl⟩
      obtain ⟨c, hc2, ht⟩ := this
      rw [ht] at hb
      refine ⟨_, (Option.some.inj hb).symm, ?_⟩
      rw [UInt8.lt_iff_toNat_lt]
      rw [UInt8.le_iff_toNat_le] at hc2
      have := (bs.flatten.headD 0).toNat_lt
      simp only [UInt8.toNat_add, UInt8.toNat_div]
      have h2 : (2 : UInt8).toNat = 2 := rfl
      rw [h2]
      have h200 : (200 : UInt8).toNat = 200 := rfl
      omega
    · exact hf p b hb
  faithful := by
    intro s t fs fs' k o o' hs ht hf hf' hd hd' hc
    obtain ⟨p, a, out, c, inst, ha, hac, rfl⟩ := small_steps s hs
    obtain ⟨p', a', out', c', inst', ha', hac', rfl⟩ := small_steps t ht
    obtain ⟨x, y, hx, hy, rfl, rfl⟩ := tiny_digests hf ha hd
    obtain ⟨x', y', hx', hy', hk, rfl⟩ := tiny_digests hf' ha' hd'
    simp only [List.cons.injEq, and_true] at hk
    obtain ⟨rfl, rfl⟩ := hk
    have : c = c' := by
      rcases hac with ⟨rfl, rfl⟩ | ⟨rfl, rfl⟩ <;> rcases hac' with ⟨h, rfl⟩ | ⟨h, rfl⟩ <;> first | rfl | (exact absurd h (by decide))
    subst this
    rw [tiny_current hx hy] at hc
    rw [tiny_current hx' hy', hc]
  groups n g hn hp s fs fs' k hs hf hf' hg hd := by
    obtain ⟨p, a, out, c, inst, ha, hac, rfl⟩ := small_steps s hs
    match n, hn with
    | 0, hn => injection hn with hn; injection hn with hn; subst hn; cases hp
    | 1, hn =>
      injection hn with hn; injection hn with hn; subst hn
      obtain ⟨x, _, h1⟩ := tiny_key hf (by decide) hg
      obtain ⟨y, _, h2⟩ := tiny_key hf' ha hd
      rw [h1] at h2
      simp only [List.cons.injEq, and_true] at h2
      rcases hac with ⟨h, _⟩ | ⟨h, _⟩ <;> exact absurd (h2.2.trans h) (by decide)
    | 2, hn => cases hn
    | 3, hn => cases hn
    | n + 4, hn => cases hn
  decided n g hn hp := by
    match n, hn with
    | 0, hn => injection hn with hn; injection hn with hn; subst hn; cases hp
    | 1, hn => injection hn with hn; injection hn with hn; subst hn; simp
    | 2, hn => cases hn
    | 3, hn => cases hn
    | n + 4, hn => cases hn
  other i s hn := by
    match i, hn with
    | 2, h => injection h with h; injection h with h; subst h; simp only [rendering]; decide
    | 3, h => injection h with h; injection h with h; subst h; simp only [compiling]; decide
  twins i j s t hi hj he := by
    match i, j, hi, hj with
    | 2, 2, hi, hj => rw [hi] at hj; injection hj with hj; injection hj
    | 3, 3, hi, hj => rw [hi] at hj; injection hj with hj; injection hj
    | 2, 3, hi, hj =>
      injection hi with hi; injection hi with hi; subst hi
      injection hj with hj; injection hj with hj; subst hj
      exact absurd he (by simp only [rendering, compiling]; decide)
    | 3, 2, hi, hj =>
      injection hi with hi; injection hi with hi; subst hi
      injection hj with hj; injection hj with hj; subst hj
      exact absurd he (by simp only [rendering, compiling]; decide)

theorem paper_guarded (clear instant : Bool) (ends : Nat → List (Nat × Future)) :
    Guarded (paper clear instant ends) trees (fun _ => False) 0 := by
  refine .parallel _ 0 _ rfl rfl (fun m hm => ?_)
  obtain rfl : m = 1 := by simpa [trees] using hm
  refine .sequence _ 1 _ rfl rfl (fun a m b hl => ?_)
  rcases a with _ | ⟨x, a⟩
  · obtain ⟨rfl, rfl⟩ : m = 2 ∧ b = [3] := by simpa [trees, eq_comm] using hl
    refine .step _ 2 (rendering instant) rfl ?_
    rintro p hp ⟨j, t, _, hj, ho⟩
    obtain rfl : p = "doc.dm".toList := by simpa [rendering] using hp
    match j, hj with
    | 2, hj => injection hj with hj; injection hj with hj; subst hj; exact absurd ho (by simp only [rendering]; decide)
    | 3, hj => injection hj with hj; injection hj with hj; subst hj; exact absurd ho (by simp only [compiling]; decide)
  · rcases a with _ | ⟨y, a⟩
    · obtain ⟨rfl, rfl, rfl⟩ : x = 2 ∧ m = 3 ∧ b = [] := by simpa [trees, eq_comm] using hl
      refine .step _ 3 compiling rfl ?_
      rintro p hp _
      obtain rfl : p = "doc.tex".toList := by simpa [compiling] using hp
      exact ⟨2, rendering instant, .inr ⟨2, by simp, .step 2 _ rfl⟩, rfl, rfl⟩
    · have := congrArg List.length hl
      simp [trees] at this

/-- A new document can be built, and one whose target builder does not remove finished builders can always be. -/
theorem paper_begins (clear instant : Bool) (ends : Nat → List (Nat × Future)) (fs : FS) (db : Dict Bytes Bytes) (hf : small.files fs)
    (hc : clear = true → ∀ p, p ≠ "doc.dm".toList → fs p = none) : Begins (paper clear instant ends) small 0 (anew fs db) (fun _ => False) where
  sound := paper_sound clear instant ends
  files := hf
  new i := ⟨rfl, rfl⟩
  guarded := paper_guarded clear instant ends
  upToDate i h := absurd h id
  clears n g hn hg hp a m b hl ha i s hi hs := by
    have hcl : clear = true := by
      match n, hn with
      | 0, hn => injection hn with hn; injection hn with hn; subst hn; cases hp
      | 1, hn => injection hn with hn; injection hn with hn; subst hn; exact hg
      | 2, hn => cases hn
      | 3, hn => cases hn
      | n + 4, hn => cases hn
    refine .inl (hc hcl _ ?_)
    match i, hs with
    | 2, hs => injection hs with hs; injection hs with hs; subst hs; simp only [rendering]; decide
    | 3, hs => injection hs with hs; injection hs with hs; subst hs; simp only [compiling]; decide

theorem draft_small (x : UInt8) (hx : x < 200) (fs : FS) (hf : small.files fs) : small.files (draft x fs) := by
  intro p b hb
  unfold draft at hb
  split at hb
  · exact ⟨x, (Option.some.inj hb).symm, hx⟩
  · exact hf p b hb

theorem none_small : small.files (fun _ => none) := fun p b hb => by cases hb

/-- Commands end at each twentieth time. -/
def slowly : Nat → List (Nat × Future) := fun t => if t % 20 = 19 then [(2, .ended 0), (3, .ended 0)] else []

/-- A document is built, edited and built again. -/
def first : Option (Except Builder.Err Status) × World := (paper false true slowly).build 5 0 20 (anew (draft 10 fun _ => none) [])
def second : Option (Except Builder.Err Status) × World := (paper false true slowly).build 5 0 20 (anew (draft 20 first.2.fs) first.2.db)

theorem first_past : Past tiny small first.2.fs first.2.db := by
  unfold first
  exact @Past.build tiny small (paper false true slowly) 5 0 20 (anew (draft 10 fun _ => none) []) (fun _ => False) rfl
    (paper_begins false true slowly _ [] (draft_small 10 (by decide) _ none_small) (by intro h; cases h))
    (.new _ (draft_small 10 (by decide) _ none_small))

/-- The hypotheses of the theorems are met by the second build, which reports 'done' with both files made anew. -/
example : Past tiny small (draft 20 first.2.fs) first.2.db ∧
    (∃ S, Begins (paper false true slowly) small 0 (anew (draft 20 first.2.fs) first.2.db) S) ∧
    second.1 = some (.ok .done) ∧ second.2.fs "doc.tex".toList = some [11] ∧ second.2.fs "doc.pdf".toList = some [7] ∧
    first.2.fs "doc.pdf".toList = some [5] ∧ second.2.runs 2 = 1 ∧ second.2.runs 3 = 1 := by
  have hf : small.files (draft 20 first.2.fs) := draft_small 20 (by decide) _ first_past.files
  refine ⟨.edit _ _ _ first_past hf, ⟨_, paper_begins false true slowly _ _ hf (by intro h; cases h)⟩, ?_⟩
  decide +kernel

/-- A document is built, edited and built again, with builders that are removed when they are finished. -/
def firstClearing : Option (Except Builder.Err Status) × World := (paper true false slowly).build 5 0 20 (anew (draft 10 fun _ => none) [])
def secondClearing : Option (Except Builder.Err Status) × World :=
  (paper true false slowly).build 5 0 20 (anew (draft 20 firstClearing.2.fs) firstClearing.2.db)

theorem firstClearing_past : Past tiny small firstClearing.2.fs firstClearing.2.db := by
  unfold firstClearing
  exact @Past.build tiny small (paper true false slowly) 5 0 20 (anew (draft 10 fun _ => none) []) (fun _ => False) rfl
    (paper_begins true false slowly _ [] (draft_small 10 (by decide) _ none_small) (fun _ p hp => by
      show (if p = _ then _ else _) = _
      rw [if_neg hp]))
    (.new _ (draft_small 10 (by decide) _ none_small))

theorem secondClearing_eq : secondClearing.1 = some (.ok .done) ∧ secondClearing.2.fs "doc.tex".toList = some [11] ∧
    secondClearing.2.fs "doc.pdf".toList = some [5] ∧ secondClearing.2.runs 3 = 0 := by decide +kernel

theorem secondClearing_old : ¬ Current secondClearing.2.fs compiling := by
  unfold compiling
  rw [tiny_current secondClearing_eq.2.1 secondClearing_eq.2.2.1]
  decide

theorem paper_parts (clear instant : Bool) (ends : Nat → List (Nat × Future)) : Part (paper clear instant ends) trees 0 3 :=
  .group 0 1 3 _ rfl (.head _) (.group 1 3 3 _ rfl (.tail _ (.head _)) (.step 3 _ rfl))

/-- The condition on builders that remove finished ones is needed: a `SequentialBuilder` (whose `clear_done` is true,
`composite_builder.py:24`) whose first step is running removes the second one, as the file of that is still in accordance with the old
input; the build reports 'done' with an old file, and the second step was not run. -/
theorem C74_clearing_refuted : ∃ (P : Project) (U : Scope) (w : World) (i : Nat) (s : Step), Past P.cfg U w.fs w.db ∧ Sound P U ∧
    U.files w.fs ∧ New w ∧ Guarded P w.subs (fun _ => False) 0 ∧ (P.build 5 0 20 w).1 = some (.ok .done) ∧ Part P w.subs 0 i ∧
    P.node i = some (.step s) ∧ ¬ Current (P.build 5 0 20 w).2.fs s ∧ (P.build 5 0 20 w).2.runs i = 0 := by
  have hf : small.files (draft 20 firstClearing.2.fs) := draft_small 20 (by decide) _ firstClearing_past.files
  generalize hw : anew (draft 20 firstClearing.2.fs) firstClearing.2.db = w
  have hdef : (paper true false slowly).build 5 0 20 w = secondClearing := by subst hw; unfold secondClearing; rfl
  have hfs : w.fs = draft 20 firstClearing.2.fs := hw ▸ (anew_eq _ _).1
  have hdb : w.db = firstClearing.2.db := hw ▸ (anew_eq _ _).2.1
  have hsubs : w.subs = trees := hw ▸ (anew_eq _ _).2.2
  have hnew : New w := by subst hw; exact anew_new _ _
  refine ⟨paper true false slowly, small, w, 3, compiling, ?_⟩
  rw [hdef, hfs, hdb, hsubs]
  exact ⟨.edit _ _ _ firstClearing_past hf, paper_sound _ _ _, hf, hnew, paper_guarded _ _ _, secondClearing_eq.1,
    paper_parts _ _ _, rfl, secondClearing_old, secondClearing_eq.2.2.2⟩

end Verif.Build
