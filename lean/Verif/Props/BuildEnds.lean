import Verif.Lemmas.BuildEnds
import Verif.Props.Build

/-!
# C75: builds end

The loop of C74 has no bound in the code. The theorems say that it ends, for any builders, any nesting of them and any times at which
commands end, as long as each command does end.
-/

namespace Verif.Build

open Verif Verif.Decider Verif.Builder

/-- More rounds change nothing once a build has ended. -/
theorem build_more (P : Project) (depth root : Nat) {rounds : Nat} {w : World} {x : Except Builder.Err Status}
    (h : (P.build depth root rounds w).1 = some x) (more : Nat) :
    P.build depth root (rounds + more) w = P.build depth root rounds w := by
  induction rounds generalizing w with
  | zero => cases h
  | succ r ih =>
    rw [show r + 1 + more = (r + more) + 1 by omega]
    unfold Project.build at h ⊢
    generalize (P.ops depth).status root w = q at h ⊢
    obtain ⟨st, w1⟩ := q
    cases st with
    | error e => rfl
    | ok st =>
      simp only at h ⊢
      by_cases hb : st = .building ∨ st = .ready
      · rw [if_pos hb] at h
        rw [if_pos hb, if_pos hb]
        generalize (P.ops depth).build root w1 = q at h ⊢
        obtain ⟨y, w2⟩ := q
        cases y with
        | error e => rfl
        | ok u => exact ih h
      · rw [if_neg hb, if_neg hb]

/-- What the theorems rest on. -/
theorem Begins.over {P : Project} {U : Scope} {root depth : Nat} {w : World} {S : Nat → Prop} (hb : Begins P U root w S)
    (hp : Past P.cfg U w.fs w.db) (hd : Deep P w.subs depth root) (he : Ending P)
    (hi : ∀ i s, P.node i = some (.step s) → s.parameters ≠ []) :
    ∃ r x, (P.build depth root r w).1 = some x ∧ (Successful P → HasSources P w → x = .ok .done) := by
  have hI := hb.inv (C74_truthful hp)
  obtain ⟨r, x, h1, h2⟩ := Build.over ⟨hb.sound, hi⟩
    (fun n g hn hc hp a m b hl ha i hi s hs => hb.clears n g hn hc hp a m b hl ha i s hi hs) hd he hI.top
    (hb.guarded.mono (fun _ h => absurd h id))
  refine ⟨r, x, h1, fun hs hsrc => h2 ⟨hs, fun i => ?_, hsrc⟩⟩
  rw [(hb.new i).1]
  exact .inl rfl

/-- **C75.** A build ends, whatever its commands end with, if each command ends: from some number of rounds on, nothing happens any
more, and there is a result. -/
theorem C75_ends {P : Project} {U : Scope} {root depth : Nat} {w : World} {S : Nat → Prop} (hp : Past P.cfg U w.fs w.db)
    (hb : Begins P U root w S) (hd : Deep P w.subs depth root) (he : Ending P)
    (hi : ∀ i s, P.node i = some (.step s) → s.parameters ≠ []) :
    ∃ n x, (P.build depth root n w).1 = some x ∧ ∀ rounds, n ≤ rounds → P.build depth root rounds w = P.build depth root n w := by
  obtain ⟨n, x, h1, _⟩ := hb.over hp hd he hi
  refine ⟨n, x, h1, fun rounds hr => ?_⟩
  obtain ⟨m, rfl⟩ := Nat.exists_eq_add_of_le hr
  exact build_more P depth root h1 m

/-- **C75.** If moreover no command fails and the files that no step makes are there, then the build ends with 'done', and each file
is what its tool makes. -/
theorem C75_done {P : Project} {U : Scope} {root depth : Nat} {w : World} {S : Nat → Prop} (hp : Past P.cfg U w.fs w.db)
    (hb : Begins P U root w S) (hd : Deep P w.subs depth root) (he : Ending P)
    (hi : ∀ i s, P.node i = some (.step s) → s.parameters ≠ []) (hok : Successful P) (hs : HasSources P w) :
    ∃ n, ∀ rounds, n ≤ rounds → (P.build depth root rounds w).1 = some (.ok .done) ∧
      ∀ i s, Part P w.subs root i → P.node i = some (.step s) → Current (P.build depth root rounds w).2.fs s := by
  obtain ⟨n, x, h1, h2⟩ := hb.over hp hd he hi
  have h2 := h2 hok hs
  subst h2
  refine ⟨n, fun rounds hr => ?_⟩
  obtain ⟨m, rfl⟩ := Nat.exists_eq_add_of_le hr
  have h3 := build_more P depth root h1 m
  have h4 : (P.build depth root (n + m) w).1 = some (.ok .done) := by rw [h3, h1]
  exact ⟨h4, fun i s hi hn => (C74_current hp hb depth _ h4 i s hi hn).1⟩

/-- **C75.** Two builds of the same builders from the same sources that go well end with the same files, whatever the order in which
commands end, and whatever was built before. -/
theorem C75_same {P P' : Project} {U U' : Scope} {root depth depth' : Nat} {w w' : World} {S S' : Nat → Prop}
    (hp : Past P.cfg U w.fs w.db) (hb : Begins P U root w S) (hd : Deep P w.subs depth root) (he : Ending P)
    (hi : ∀ i s, P.node i = some (.step s) → s.parameters ≠ []) (hok : Successful P) (hs : HasSources P w)
    (hp' : Past P'.cfg U' w'.fs w'.db) (hb' : Begins P' U' root w' S') (hd' : Deep P' w'.subs depth' root) (he' : Ending P')
    (hok' : Successful P') (hnode : P'.node = P.node) (hsub : w'.subs = w.subs)
    (hsrc : ∀ p, ¬ Made P (fun _ => True) p → w.fs p = w'.fs p) :
    ∃ n, ∀ rounds rounds', n ≤ rounds → n ≤ rounds' → ∀ i s, Part P w.subs root i → P.node i = some (.step s) →
      (P.build depth root rounds w).2.fs s.out = (P'.build depth' root rounds' w').2.fs s.out := by
  have hs' : HasSources P' w' := by
    intro i s p hn hmem hm
    have hm' : ¬ Made P (fun _ => True) p := by
      rintro ⟨j, t, h1, h2, h3⟩
      exact hm ⟨j, t, h1, by rw [hnode]; exact h2, h3⟩
    rw [← hsrc p hm']
    exact hs i s p (by rw [← hnode]; exact hn) hmem hm'
  obtain ⟨n, h1⟩ := C75_done hp hb hd he hi hok hs
  obtain ⟨n', h2⟩ := C75_done hp' hb' hd' he' (by rw [hnode]; exact hi) hok' hs'
  refine ⟨max n n', fun r r' hr hr' i s hpart hn => ?_⟩
  exact C74_clean hp hb hp' hb' hnode hsub depth r depth' r' (h1 r (by omega)).1 (h2 r' (by omega)).1 hsrc i s hpart hn

/-! ### The document of C74 -/

theorem paper_deep (clear instant : Bool) (ends : Nat → List (Nat × Future)) : Deep (paper clear instant ends) trees 5 0 := by
  refine .group 4 0 _ rfl (fun m hm => ?_)
  obtain rfl : m = 1 := by simpa [trees] using hm
  refine .group 3 1 _ rfl (fun m hm => ?_)
  have : m = 2 ∨ m = 3 := by simpa [trees] using hm
  rcases this with rfl | rfl
  · exact .step 2 2 _ rfl
  · exact .step 2 3 _ rfl

theorem paper_inputs (clear instant : Bool) (ends : Nat → List (Nat × Future)) (i : Nat) (s : Step)
    (hn : (paper clear instant ends).node i = some (.step s)) : s.parameters ≠ [] := by
  match i, hn with
  | 2, h => injection h with h; injection h with h; subst h; simp [rendering]
  | 3, h => injection h with h; injection h with h; subst h; simp [compiling]

theorem paper_sources (clear instant : Bool) (ends : Nat → List (Nat × Future)) (x : UInt8) (fs : FS) (db : Dict Bytes Bytes) :
    HasSources (paper clear instant ends) (anew (draft x fs) db) := by
  intro i s p hn hp hm
  match i, hn with
  | 2, h =>
    injection h with h; injection h with h; subst h
    obtain rfl : p = "doc.dm".toList := by simpa [rendering] using hp
    show draft x fs "doc.dm".toList ≠ none
    unfold draft
    rw [if_pos rfl]
    exact Option.some_ne_none _
  | 3, h =>
    injection h with h; injection h with h; subst h
    obtain rfl : p = "doc.tex".toList := by simpa [compiling] using hp
    exact absurd ⟨2, rendering instant, trivial, rfl, rfl⟩ hm

theorem often {l : Nat → List (Nat × Future)} {m : Nat} (hm : 0 < m) {e2 e3 : Future} (h2 : e2 ≠ .running) (h3 : e3 ≠ .running)
    (hl : ∀ t, t % m = m - 1 → l t = [(2, e2), (3, e3)]) (clear instant : Bool) : Ending (paper clear instant l) := by
  intro i s t hn
  have ht : t ≤ m * t + (m - 1) ∧ (m * t + (m - 1)) % m = m - 1 := by
    have : t ≤ m * t := Nat.le_mul_of_pos_left t hm
    refine ⟨by omega, ?_⟩
    rw [Nat.mul_add_mod]
    exact Nat.mod_eq_of_lt (by omega)
  match i, hn with
  | 2, _ => exact ⟨_, e2, ht.1, h2, by show _ ∈ l _; rw [hl _ ht.2]; simp⟩
  | 3, _ => exact ⟨_, e3, ht.1, h3, by show _ ∈ l _; rw [hl _ ht.2]; simp⟩

theorem slowly_often (clear instant : Bool) : Ending (paper clear instant slowly) :=
  often (m := 20) (e2 := .ended 0) (e3 := .ended 0) (by omega) (by simp) (by simp) (fun t ht => by unfold slowly; rw [if_pos ht]) clear instant

theorem slowly_successful (clear instant : Bool) : Successful (paper clear instant slowly) := by
  intro t e he
  have he : e ∈ slowly t := he
  unfold slowly at he
  split at he
  · simp only [List.mem_cons, List.not_mem_nil, or_false] at he
    rcases he with rfl | rfl <;> rfl
  · exact absurd he List.not_mem_nil

/-- The second command fails. -/
def badly : Nat → List (Nat × Future) := fun t => if t % 20 = 19 then [(2, .ended 0), (3, .ended 1)] else []

theorem paper_done (clear instant : Bool) (x : UInt8) (fs : FS) (db : Dict Bytes Bytes) (S : Nat → Prop)
    (hp : Past tiny small (draft x fs) db) (hb : Begins (paper clear instant slowly) small 0 (anew (draft x fs) db) S) :
    ∃ n, ∀ rounds, n ≤ rounds → ((paper clear instant slowly).build 5 0 rounds (anew (draft x fs) db)).1 = some (.ok .done) := by
  obtain ⟨n, h⟩ := C75_done (P := paper clear instant slowly) (w := anew (draft x fs) db) hp hb (paper_deep _ _ _) (slowly_often _ _)
    (paper_inputs _ _ _) (slowly_successful _ _) (paper_sources _ _ _ _ _ _)
  exact ⟨n, fun rounds hr => (h rounds hr).1⟩

/-- The hypotheses of `C75_done` are met by a document that was built and edited. -/
example : ∃ n, ∀ rounds, n ≤ rounds →
    ((paper false true slowly).build 5 0 rounds (anew (draft 20 first.2.fs) first.2.db)).1 = some (.ok .done) := by
  have h := first_past
  generalize first.2.fs = fs at h ⊢
  generalize first.2.db = db at h ⊢
  have hf : small.files (draft 20 fs) := draft_small 20 (by decide) _ h.files
  exact paper_done false true 20 fs db _ (.edit _ _ _ h hf) (paper_begins false true slowly _ _ hf (by intro h; cases h))

/-- The hypotheses of `C75_ends` are met by a new document one command of which fails; its build raises. -/
example : (∃ n x, ((paper true true badly).build 5 0 n (anew (draft 10 fun _ => none) [])).1 = some x ∧ ∀ rounds, n ≤ rounds →
      (paper true true badly).build 5 0 rounds (anew (draft 10 fun _ => none) []) =
        (paper true true badly).build 5 0 n (anew (draft 10 fun _ => none) [])) ∧
    ((paper true true badly).build 5 0 20 (anew (draft 10 fun _ => none) [])).1 = some (.error .buildError) := by
  have hf : small.files (draft 10 fun _ => none) := draft_small 10 (by decide) _ none_small
  refine ⟨C75_ends (P := paper true true badly) (U := small) (S := fun _ => False) (.new _ hf) (paper_begins true true badly _ [] hf (fun _ p hp => ?_))
    (paper_deep _ _ _) (often (m := 20) (e2 := .ended 0) (e3 := .ended 1) (by omega) (by simp) (by simp) (fun t ht => by unfold badly; rw [if_pos ht]) _ _) (paper_inputs _ _ _), ?_⟩
  · show (if p = _ then _ else _) = _
    rw [if_neg hp]
  · decide +kernel

/-- If a file that no step makes is not there, then the build reports that. -/
example : ((paper true true slowly).build 5 0 20 (anew (fun _ => none) [])).1 = some (.ok .missingParameters) := by decide +kernel

end Verif.Build
