import Verif.Lemmas.Kpse

/-!
# C99: the processes of the checker for pdf
-/

namespace Verif.Kpse

open Verif Verif.Checkers

theorem numbered_zipIdx (ext : Str) (n : Nat) (l : List Str) :
    numbered ext n l = (l.zipIdx n).map (fun x => (x.2, x.1 ++ ext)) := by
  induction l generalizing n with
  | nil => rfl
  | cons s l ih => rw [numbered, ih, List.zipIdx_cons, List.map_cons]

/-- One process is started for each program of the tree, in order, with its name and the extension. No process is started if
`kpsewhich` is not installed. -/
theorem C99_started (installed : Bool) (ext : Str) (ds : List Dep) :
    starts (events installed ext ds) =
      if installed then (allNames ds).zipIdx.map (fun x => (x.2, x.1 ++ ext)) else [] := by
  cases installed
  · rfl
  · exact (listing_starts ext 0 0 [] ds).2.1.trans (numbered_zipIdx ..)

/-- Each process is waited for once. -/
theorem C99_waited (installed : Bool) (ext : Str) (ds : List Dep) :
    (waits (events installed ext ds)).Nodup ∧
    ∀ i, i ∈ waits (events installed ext ds) ↔ ∃ file, (i, file) ∈ starts (events installed ext ds) := by
  cases installed
  · exact ⟨List.nodup_nil, fun i => ⟨(fun h => by cases h), (fun ⟨_, h⟩ => by cases h)⟩⟩
  · obtain ⟨_, h2, h3⟩ := listing_starts ext 0 0 [] ds
    rw [List.nil_append] at h3
    refine ⟨h3.nodup_iff.mpr List.nodup_range', fun i => ?_⟩
    show i ∈ waits (listing ext 0 0 [] ds).1 ↔ ∃ file, (i, file) ∈ starts (listing ext 0 0 [] ds).1
    rw [h3.mem_iff, h2, numbered_zipIdx, List.mem_range'_1]
    constructor
    · rintro ⟨_, h⟩
      rw [Nat.zero_add] at h
      refine ⟨(allNames ds)[i] ++ ext, List.mem_map.mpr ⟨((allNames ds)[i], i), ?_, rfl⟩⟩
      exact List.mk_mem_zipIdx_iff_getElem?.mpr (List.getElem?_eq_getElem h)
    · rintro ⟨file, h⟩
      obtain ⟨⟨s, j⟩, hj, e⟩ := List.mem_map.mp h
      cases e
      have := List.mk_mem_zipIdx_iff_getElem?.mp hj
      obtain ⟨hl, _⟩ := List.getElem?_eq_some_iff.mp this
      omega

/-- A process is waited for after it was started. -/
theorem C99_after (installed : Bool) (ext : Str) (ds : List Dep) (a b : List Event) (i : Nat)
    (h : events installed ext ds = a ++ .wait i :: b) : ∃ file, (i, file) ∈ starts a := by
  cases installed
  · cases a <;> cases h
  · rcases listing_ordered ext 0 0 [] ds a i b h with h | h
    · cases h
    · obtain ⟨⟨j, f⟩, hj, rfl⟩ := List.mem_map.mp h
      exact ⟨f, hj⟩

/-- With lists inside each other, each level of lists adds four processes at most. -/
theorem C99_bound (installed : Bool) (ext : Str) (ds : List Dep) : AtMost (5 + 4 * allDepth ds) (events installed ext ds) := by
  cases installed
  · intro p h
    rw [List.prefix_nil.mp h]
    exact Nat.zero_le _
  · intro p h
    have := listing_atMost ext 0 0 [] ds (by omega) (by simp) p h
    simp only [List.length_nil] at this
    omega

theorem flat_depth (ds : List Dep) (h : ∀ d ∈ ds, ∃ n a, d = .prog n a) : allDepth ds = 0 := by
  induction ds with
  | nil => rfl
  | cons d ds ih =>
    obtain ⟨n, a, rfl⟩ := h d (List.mem_cons_self ..)
    rw [allDepth, depth, ih fun d hd => h d (List.mem_cons_of_mem _ hd)]
    rfl

/-- At most five processes run at a time if there are no lists inside the list. -/
theorem C99_five_partial (installed : Bool) (ext : Str) (ds : List Dep) (h : ∀ d ∈ ds, ∃ n a, d = .prog n a) :
    AtMost 5 (events installed ext ds) := by
  have := C99_bound installed ext ds
  rwa [flat_depth ds h] at this

/-- Four programs and a list, again and again. -/
def nest (x : Str) : Nat → List Dep
  | 0 => []
  | k + 1 => [.prog x none, .prog x none, .prog x none, .prog x none, .group .all x (nest x k)]

theorem nest_running (ext x : Str) (k n : Nat) :
    ∃ p, p <+: (listing ext n 0 [] (nest x k)).1 ∧ (starts p).length = 4 * k ∧ waits p = [] := by
  induction k generalizing n with
  | zero => exact ⟨[], List.nil_prefix, rfl, rfl⟩
  | succ k ih =>
    obtain ⟨p, ⟨t, ht⟩, h2, h3⟩ := ih (n + 1 + 1 + 1 + 1)
    refine ⟨[.start n (x ++ ext), .start (n + 1) (x ++ ext), .start (n + 1 + 1) (x ++ ext), .start (n + 1 + 1 + 1) (x ++ ext)] ++ p,
      ?_, ?_, ?_⟩
    · simp only [nest, listing, item, Nat.reduceAdd, Nat.reduceEqDiff, if_false, if_true, List.cons_append, List.nil_append, ← ht,
        List.append_assoc]
      simp
    · rw [starts_append, List.length_append, h2]
      simp only [starts, List.filterMap_cons, List.filterMap_nil, List.length_cons, List.length_nil]
      omega
    · rw [waits_append, h3]; rfl

/-- The claim that at most five processes run at a time (`checkers/pdf.py:50-52`) is false: for lists inside each other there is no
number that bounds them. -/
theorem C99_five_refuted (k : Nat) : ∃ ds, ¬ AtMost k (events true ['.', 's', 't', 'y'] ds) := by
  refine ⟨nest ['a'] (k + 1), fun h => ?_⟩
  obtain ⟨p, h1, h2, h3⟩ := nest_running ['.', 's', 't', 'y'] ['a'] (k + 1) 0
  have := h p h1
  rw [h2, h3, List.length_nil] at this
  omega

/-! Six programs: one waits for the five before. A list of five after four programs: nine processes run. -/

example : events true ['.'] [.prog ['a'] none, .prog ['b'] none, .prog ['c'] none, .prog ['d'] none, .prog ['e'] none, .prog ['f'] none] =
    [.start 0 ['a', '.'], .start 1 ['b', '.'], .start 2 ['c', '.'], .start 3 ['d', '.'], .start 4 ['e', '.'],
      .wait 0, .wait 1, .wait 2, .wait 3, .wait 4, .start 5 ['f', '.'], .wait 5] := by decide +kernel

example : events true [] [.prog ['a'] none, .group .any ['g'] [.prog ['b'] none, .prog ['c'] none], .prog ['d'] none] =
    [.start 0 ['a'], .start 1 ['b'], .start 2 ['c'], .wait 1, .wait 2, .start 3 ['d'], .wait 0, .wait 3] := by decide +kernel

example : ∀ d ∈ [Dep.prog ['a'] none, .prog ['b'] (some true)], ∃ n a, d = .prog n a := by
  intro d h
  rcases List.mem_cons.mp h with rfl | h
  · exact ⟨_, _, rfl⟩
  · exact ⟨_, _, List.mem_singleton.mp h⟩

end Verif.Kpse
