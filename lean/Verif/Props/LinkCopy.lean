import Verif.Spec.LinkCopy

/-!
# C96: links and copies of files
-/

namespace Verif.LinkCopy

open Verif

variable {N : Type} [DecidableEq N]

theorem read_set_ne (d : Disk N) {n m : N} (f : Option Node) (h : m ≠ n) : (d.set n f).read m = d.read m := by
  simp only [Disk.read, Disk.set, if_neg h]

theorem entry_set_ne (d : Disk N) {n m : N} (f : Option Node) (h : m ≠ n) : (d.set n f).entry m = d.entry m := by
  simp only [Disk.set, if_neg h]

/-- The states of `put`: other names are as they were, and the name has the start of a text. -/
theorem put_states (S : Sys N) (d : Disk N) (src dst : N) (f : Node) (hfr : ∀ n i, d.entry n ≠ some (i, S.fresh d i))
    (hs : d.entry src = some f) :
    ∀ d' ∈ (put S d src dst f).1, (∀ n, n ≠ dst → d'.entry n = d.entry n ∧ d'.read n = d.read n) ∧
      ∃ s k, d.read src = some s ∧ d'.read dst = some (s.take k) := by
  intro d' hd'
  simp only [put, link, copyfile] at hd'
  cases ht : d.text f with
  | none => simp only [ht] at hd'; cases hd'
  | some s =>
    have hread : d.read src = some s := by simp only [Disk.read, hs, Option.bind_some, ht]
    simp only [ht] at hd'
    split at hd'
    · rename_i d2 hl
      split at hl
      · cases hl
        rw [List.mem_singleton] at hd'
        subst hd'
        refine ⟨fun n hn => ⟨entry_set_ne d _ hn, read_set_ne d _ hn⟩, s, s.length, hread, ?_⟩
        simp only [Disk.read, Disk.set, if_pos, Option.bind_some, List.take_length]
        exact ht
      · cases hl
    · split at hd'
      · simp only [List.mem_map] at hd'
        obtain ⟨k, _, rfl⟩ := hd'
        refine ⟨fun n hn => ⟨entry_set_ne d _ hn, ?_⟩, s, k, hread, ?_⟩
        · simp only [Disk.read, Disk.write, Disk.set, if_neg hn]
          cases he : d.entry n with
          | none => rfl
          | some g =>
            simp only [Option.bind_some]
            rw [if_neg]
            intro e
            exact hfr n (S.dev dst) (he.trans (congrArg some e))
        · simp only [Disk.read, Disk.write, Disk.set, if_pos, Option.bind_some]
      · cases hd'

/-- The end of `put`. -/
theorem put_end (S : Sys N) (d : Disk N) (src dst : N) (f : Node) (s : Str) (hs : d.entry src = some f) (ht : d.text f = some s)
    (hp : S.parent dst = true) :
    ∃ ds e, put S d src dst f = (ds ++ [e], .ok ()) ∧ e.read dst = some s ∧
      (S.dev src = S.dev dst → S.linkable src dst = true → e.entry dst = some f) := by
  simp only [put, link, copyfile, ht]
  by_cases hl : S.parent dst = true ∧ S.dev src = S.dev dst ∧ S.linkable src dst = true
  · rw [if_pos hl]
    refine ⟨[], _, rfl, ?_, fun _ _ => ?_⟩
    · simp only [Disk.read, Disk.set, if_pos, Option.bind_some]; exact ht
    · simp only [Disk.set, if_pos]
  · rw [if_neg hl]
    simp only [hp, if_pos]
    rw [List.range_succ, List.map_append]
    refine ⟨_, _, rfl, ?_, fun h1 h2 => absurd ⟨hp, h1, h2⟩ hl⟩
    simp only [Disk.read, Disk.write, Disk.set, if_pos, Option.bind_some, List.take_length]

/-! ### Examples -/

/-- Two devices, with names by numbers: names from 10 are on the second one. -/
def exSys : Sys Nat where
  dev := fun n => n / 10
  parent := fun _ => true
  linkable := fun _ _ => true
  fresh := fun _ _ => 100

/-- Files 1, 2 and 11; the names 2 and 3 are one file; 11 has the number of 1. -/
def exDisk : Disk Nat where
  entry := fun n => if n = 1 then some (0, 5) else if n = 2 ∨ n = 3 then some (0, 6) else if n = 11 then some (1, 5)
    else if n = 12 then some (1, 8) else none
  text := fun f => if f = (0, 5) then some "new".toList else if f = (0, 6) then some "old".toList else if f = (1, 5) then some "else".toList
    else if f = (1, 8) then some "far".toList else none

example : Sound exSys exDisk where
  dev := by
    intro n f h
    simp only [exDisk] at h
    repeat' (split at h)
    all_goals first | (cases h; simp only [exSys]; omega) | cases h
  parent := fun _ _ _ => rfl
  fresh := by
    intro d' n i hd h
    have h := hd _ _ h
    simp only [exDisk, exSys] at h
    repeat' (split at h)
    all_goals cases h

example : NoClash exDisk 1 2 ∧ NoClash exDisk 1 12 := by
  constructor <;> intro f g h1 h2 h3 <;> cases h1 <;> cases h2 <;> exact absurd h3 (by decide)

example : (after exSys exDisk 1 2).read 2 = some "new".toList ∧ (after exSys exDisk 1 2).read 3 = some "old".toList ∧
    (after exSys exDisk 1 2).entry 2 = some (0, 5) ∧ (after exSys exDisk 1 12).read 12 = some "new".toList ∧
    (after exSys exDisk 1 12).entry 12 = some (1, 100) := by decide +kernel

/-! ### The theorems -/

/-- C96. After `link_or_copy` the second name has the text of the first, and all other names have the files and texts they
had, also those that were links to the old file of the second. -/
theorem C96_result (S : Sys N) (d : Disk N) (src dst : N) (s : Str) (h : Sound S d) (hc : NoClash d src dst)
    (hs : d.read src = some s) (hd : d.entry dst ≠ none → d.read dst ≠ none) (hp : S.parent dst = true) :
    (linkOrCopy S d src dst).2 = .ok () ∧ (after S d src dst).read dst = some s ∧
    (∀ n, n ≠ dst → (after S d src dst).read n = d.read n ∧ (after S d src dst).entry n = d.entry n) ∧
    (S.dev src = S.dev dst → S.linkable src dst = true → (after S d src dst).entry dst = d.entry src) := by
  cases hf : d.entry src with
  | none => simp only [Disk.read, hf] at hs; cases hs
  | some f =>
    have ht : d.text f = some s := by simpa only [Disk.read, hf, Option.bind_some] using hs
    simp only [after, linkOrCopy, hf]
    cases hg : d.entry dst with
    | none =>
      obtain ⟨ds, e, e1, e2, e3⟩ := put_end S d src dst f s hf ht hp
      have hst := put_states S d src dst f (fun n i => h.fresh d n i fun _ _ h => h) hf e (by rw [e1]; simp)
      simp only [e1, List.getLast?_append, List.getLast?_singleton, Option.some_or, Option.getD_some]
      exact ⟨trivial, e2, fun n hn => ⟨(hst.1 n hn).2, (hst.1 n hn).1⟩, e3⟩
    | some g =>
      by_cases he : f.2 = g.2
      · have := hc f g hf hg he
        subst this
        simp only [he, ne_eq, not_true_eq_false, if_false, List.getLast?_nil, Option.getD_none]
        refine ⟨trivial, ?_, fun n _ => ⟨trivial, trivial⟩, fun _ _ => hg⟩
        simp only [Disk.read, hg, Option.bind_some, ht]
      · have hne : src ≠ dst := by
          rintro rfl
          rw [hf] at hg
          cases hg
          exact he rfl
        have hgt : ∃ u, d.text g = some u := by
          have := hd (by rw [hg]; simp)
          simp only [Disk.read, hg, Option.bind_some] at this
          exact Option.ne_none_iff_exists'.mp this
        obtain ⟨u, hu⟩ := hgt
        simp only [ne_eq, he, not_false_eq_true, if_true, remove, hu]
        have hs' : (d.set dst none).entry src = some f := (entry_set_ne d none hne).trans hf
        have hsub : ∀ m f, (d.set dst none).entry m = some f → d.entry m = some f := by
          intro m f hm
          simp only [Disk.set] at hm
          split at hm
          · cases hm
          · exact hm
        obtain ⟨ds, e, e1, e2, e3⟩ := put_end S (d.set dst none) src dst f s hs' ht hp
        have hst := put_states S (d.set dst none) src dst f (fun n i => h.fresh _ n i hsub) hs' e (by rw [e1]; simp)
        simp only [e1, ← List.cons_append, List.getLast?_append, List.getLast?_singleton, Option.some_or, Option.getD_some]
        refine ⟨trivial, e2, fun n hn => ⟨?_, ?_⟩, e3⟩
        · rw [(hst.1 n hn).2, read_set_ne d none hn]
        · rw [(hst.1 n hn).1, entry_set_ne d none hn]

/-- C96. Wherever it stops, also with an exception, all names but the second are as they were, and the second has its old
text, no file, or the start of the text of the first: no other text is ever read there. -/
theorem C96_stop (S : Sys N) (d : Disk N) (src dst : N) (h : Sound S d) (d' : Disk N) (hd' : d' ∈ (linkOrCopy S d src dst).1) :
    (∀ n, n ≠ dst → d'.entry n = d.entry n ∧ d'.read n = d.read n) ∧ src ≠ dst ∧
    (d'.entry dst = none ∨ ∃ s k, d.read src = some s ∧ d'.read dst = some (s.take k)) := by
  simp only [linkOrCopy] at hd'
  cases hf : d.entry src with
  | none => simp only [hf] at hd'; cases hd'
  | some f =>
    simp only [hf] at hd'
    cases hg : d.entry dst with
    | none =>
      simp only [hg] at hd'
      have := put_states S d src dst f (fun n i => h.fresh d n i fun _ _ h => h) hf d' hd'
      exact ⟨this.1, (by rintro rfl; rw [hf] at hg; cases hg), .inr this.2⟩
    | some g =>
      simp only [hg] at hd'
      by_cases he : f.2 = g.2
      · simp only [he, ne_eq, not_true_eq_false, if_false] at hd'; cases hd'
      · have hne : src ≠ dst := by
          rintro rfl
          rw [hf] at hg
          cases hg
          exact he rfl
        simp only [ne_eq, he, not_false_eq_true, if_true, remove] at hd'
        cases hu : d.text g with
        | none => simp only [hu] at hd'; cases hd'
        | some u =>
          simp only [hu, List.mem_cons] at hd'
          have hsub : ∀ m f, (d.set dst none).entry m = some f → d.entry m = some f := by
            intro m f hm
            simp only [Disk.set] at hm
            split at hm
            · cases hm
            · exact hm
          rcases hd' with rfl | hd'
          · refine ⟨fun n hn => ⟨entry_set_ne d none hn, read_set_ne d none hn⟩, hne, .inl ?_⟩
            simp only [Disk.set, if_pos]
          · have hs' : (d.set dst none).entry src = some f := (entry_set_ne d none hne).trans hf
            have := put_states S (d.set dst none) src dst f (fun n i => h.fresh _ n i hsub) hs' d' hd'
            rw [read_set_ne d none hne] at this
            refine ⟨fun n hn => ⟨?_, ?_⟩, hne, .inr this.2⟩
            · rw [(this.1 n hn).1, entry_set_ne d none hn]
            · rw [(this.1 n hn).2, read_set_ne d none hn]

/-- C96. If the two names are one file already, or the first does not exist, nothing is done. -/
theorem C96_nothing (S : Sys N) (d : Disk N) (src dst : N) (h : d.entry src = d.entry dst ∨ d.entry src = none) :
    after S d src dst = d ∧ ((linkOrCopy S d src dst).2 = .ok () ↔ d.entry src ≠ none) := by
  rcases h with h | h
  · cases hg : d.entry dst with
    | none => rw [hg] at h; simp [after, linkOrCopy, h]
    | some g => rw [hg] at h; simp [after, linkOrCopy, h, hg]
  · simp [after, linkOrCopy, h]

/-! ### What is not so -/

/-- Finding: the devices are not compared. A file on another device with the number of the first file is kept as it is. -/
theorem C96_devices_refuted : (linkOrCopy exSys exDisk 1 11).2 = .ok () ∧ exDisk.read 1 = some "new".toList ∧
    (after exSys exDisk 1 11).read 11 = some "else".toList :=
  ⟨rfl, by decide +kernel, by decide +kernel⟩

/-- Finding: for a directory as the first name, the second file is removed before the exception. -/
theorem C96_directory_refuted : ∃ d : Disk Nat, Sound exSys d ∧ d.entry 0 ≠ none ∧ d.read 2 = some "old".toList ∧
    (linkOrCopy exSys d 0 2).2 = .error .isDirectory ∧ (after exSys d 0 2).entry 2 = none := by
  refine ⟨⟨fun n => if n = 0 then some (0, 9) else exDisk.entry n, exDisk.text⟩, ⟨?_, fun _ _ _ => rfl, ?_⟩, by decide, by decide +kernel, rfl, by decide +kernel⟩
  · intro n f h
    simp only [exDisk] at h
    repeat' (split at h)
    all_goals first | (cases h; simp only [exSys]; omega) | cases h
  · intro d' n i hd h
    have h := hd _ _ h
    simp only [exDisk, exSys] at h
    repeat' (split at h)
    all_goals cases h

end Verif.LinkCopy
