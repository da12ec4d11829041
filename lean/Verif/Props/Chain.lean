import Verif.Lemmas.Chain

/-!
# C58: chains of builders
-/

namespace Verif.Chain

open Verif

variable {P O C : Type} [DecidableEq P]

/-- C58. Chaining fails exactly if some sequential builder is without sub-builders. -/
theorem C58_succeeds (path : O → P) (isPath : P → Bool) (b : B P O C) :
    (∃ b', chain path isPath (levels (shape b)) b = .ok b') ↔ NoneEmpty (shape b) := by
  rw [chain_iff]
  exact ⟨fun h => h.1, fun h => ⟨h, Nat.le_refl _⟩⟩

/-- C58. Chaining links the sub-builders, on every level; the builder keeps its parameters, the steps it consists of, and its output
if it had one. -/
theorem C58_chained (path : O → P) (isPath : P → Bool) (n : Nat) (b b' : B P O C) (h : chain path isPath n b = .ok b')
    (hne : paramsOf b ≠ []) :
    Chained path isPath b' ∧ storedOf b' = storedOf b ∧ shape b' = shape b ∧ (∀ x, outOf b = some x → outOf b' = some x) :=
  ⟨chain_chained path isPath n b b' h hne, (chain_kept path isPath n b b' h).1, chain_shape path isPath n b b' h,
    (chain_kept path isPath n b b' h).2.2.2.1⟩

/-! ### Files -/

theorem after_append (as bs : List (Option C → C)) (c : Option C) : after (as ++ bs) c = after bs (after as c) := by
  simp [after, List.foldl_append]

theorem run_chained (path : O → P) (isPath : P → Bool) (hpath : ∀ o, isPath (path o) = true) (b : B P O C) (h : Chained path isPath b)
    (hc : EndsInCopy (shape b)) (p : P) (hp : (paramsOf b).find? isPath = some p) (x : O) (hx : outOf b = some x) (fs : Files P C) :
    run path isPath b fs (path x) = after (steps (shape b)) (fs p) := by
  induction h generalizing p x fs with
  | leaf k s o =>
    simp only [outOf] at hx
    subst hx
    simp only [paramsOf] at hp
    simp [run, shape, steps, after, uniq_find, hp]
  | seq k i f s o subs last given hgiven hlinked hcopy hall ih =>
    have hsteps : EndsInCopy (shape last) ∧ copies last = true ∧ ∀ b ∈ subs, EndsInCopy (shape b) := by
      simp only [shape, shapes_eq, List.map_append, List.map_cons, List.map_nil] at hc
      generalize hl : List.map shape subs ++ [shape last] = l at hc
      cases hc with
      | parts l' a h1 h2 =>
        obtain ⟨e1, e2⟩ := List.append_inj' hl rfl
        simp only [List.cons.injEq, and_true] at e2
        refine ⟨by rw [e2]; exact .one .., ?_, ?_⟩
        · cases last with
          | leaf k s o => simp only [shape, Shape.one.injEq] at e2; exact e2.1
          | seq => simp [shape] at e2
        · intro b hb
          apply h2
          rw [← e1]
          exact List.mem_map_of_mem hb
    obtain ⟨y, hy, hlast⟩ := hcopy hsteps.2.1
    simp only [outOf] at hx
    subst hx
    simp only [Option.some.injEq] at hy
    subst hy
    have hfind : given.find? isPath = some p := by
      rw [once_eq _ _ hgiven, uniq_find]; exact hp
    have hends : ∀ b ∈ subs ++ [last], EndsInCopy (shape b) := by
      intro b hb
      rcases List.mem_append.1 hb with hb | hb
      · exact hsteps.2.2 b hb
      · simp only [List.mem_singleton] at hb; subst hb; exact hsteps.1
    have hnon : ∀ b : B P O C, ∀ given p, storedOf b = given → given.find? isPath = some p → (paramsOf b).find? isPath = some p := by
      intro b given p hb hg
      cases b <;> (simp only [storedOf] at hb; subst hb; simp [paramsOf, hg])
    have gen : ∀ (l : List (B P O C)) (given : List P) (p : P) (fs : Files P C), Linked path isPath given (l ++ [last]) →
        (∀ b ∈ l ++ [last], b ∈ subs ++ [last]) → given.find? isPath = some p →
        runAll path isPath (l ++ [last]) fs (path x) = after (stepsAll (shapes (l ++ [last]))) (fs p) := by
      intro l
      induction l with
      | nil =>
        intro given p fs hl hsub hg
        cases hl with
        | cons _ _ o' ps _ e1 e2 e3 _ e4 =>
          have := ih last (by simp) hsteps.1 p (hnon last given p e1 hg) x hlast fs
          simp only [List.nil_append, runAll, shapes, stepsAll, List.append_nil]
          exact this
      | cons b l ihl =>
        intro given p fs hl hsub hg
        cases hl with
        | cons _ _ o' ps _ e1 e2 e3 _ e4 =>
          have hmem := hsub b (by simp)
          have h1 := ih b hmem (hends b hmem) p (hnon b given p e1 hg) o' e2 fs
          have h2 := ihl _ (path o') (run path isPath b fs) e4 (fun b' hb' => hsub b' (by
            rw [List.cons_append]; exact List.mem_cons_of_mem _ hb')) (by simp [hpath])
          simp only [List.cons_append, runAll, shapes, stepsAll]
          rw [h2, h1, after_append]
    simp only [run, shape, steps]
    exact gen subs given p fs hlinked (fun b hb => hb) hfind

/-- C58. Running a chained builder writes to its output file what its steps make, one after the other, of its first input file. -/
theorem C58_flow (path : O → P) (isPath : P → Bool) (hpath : ∀ o, isPath (path o) = true) (n : Nat) (b b' : B P O C)
    (h : chain path isPath n b = .ok b') (hc : EndsInCopy (shape b)) (p : P) (hp : (paramsOf b).find? isPath = some p)
    (x : O) (hx : outOf b' = some x) (fs : Files P C) :
    run path isPath b' fs (path x) = after (steps (shape b)) (fs p) := by
  have hne : paramsOf b ≠ [] := by intro e; rw [e] at hp; cases hp
  obtain ⟨h1, h2, h3, h4⟩ := C58_chained path isPath n b b' h hne
  have hk := (chain_kept path isPath n b b' h).2.1
  rw [← h3]
  exact run_chained path isPath hpath b' h1 (by rw [h3]; exact hc) p (by rw [hk]; exact hp) x hx fs

/-- C58. A new sequential builder with steps has an output file, the one it was given if there was one, and running it writes
what its steps make of the first input file to it. -/
theorem C58_new (path : O → P) (isPath : P → Bool) (hpath : ∀ o, isPath (path o) = true) (n : Nat) (k copy : Kind P O C)
    (hcopy : copy.copy = true) (hact : ∀ c, copy.act (some c) = c) (i : Option Nat) (f : O → Option O → O) (parameters : List P)
    (out : Option O) (subs : List (B P O C)) (hne : subs ≠ []) (hsubs : ∀ b ∈ subs, EndsInCopy (shape b) ∧ NoneEmpty (shape b))
    (hn : ∀ b ∈ subs, levels (shape b) < n) (p : P) (hp : (parameters ++ k.extra parameters).find? isPath = some p) :
    ∃ b x, new path isPath n k copy i f parameters out subs = .ok b ∧ outOf b = some x ∧ (∀ y, out = some y → x = y) ∧
      ∀ fs c, after ((subs.map shape).flatMap steps) (fs p) = some c → run path isPath b fs (path x) = some c := by
  have hnew : new path isPath n k copy i f parameters out subs = chain path isPath n (.seq k i f parameters out (subs ++ [.leaf copy [] none])) := by
    unfold new; rw [if_neg hne]
  rw [hnew]
  have hsh : shape (.seq k i f parameters out (subs ++ [.leaf copy [] none]) : B P O C) = .parts (subs.map shape ++ [.one true copy.act]) := by
    simp [shape, shapes_eq, hcopy]
  have hok := (chain_iff path isPath n (.seq k i f parameters out (subs ++ [.leaf copy [] none]) : B P O C)).2 (by
    rw [hsh]
    constructor
    · refine .parts _ (by simp) ?_
      intro b hb
      rcases List.mem_append.1 hb with hb | hb
      · obtain ⟨b0, h0, rfl⟩ := List.mem_map.1 hb; exact (hsubs b0 h0).2
      · simp only [List.mem_singleton] at hb; subst hb; exact .one ..
    · obtain ⟨m, rfl⟩ : ∃ m, n = m + 1 := by
        obtain ⟨b, bs, rfl⟩ := List.exists_cons_of_ne_nil hne
        have := hn b (by simp)
        exact ⟨n - 1, by omega⟩
      simp only [levels, Nat.add_le_add_iff_right]
      rw [le_levelsAll]
      intro b hb
      rcases List.mem_append.1 hb with hb | hb
      · obtain ⟨b0, h0, rfl⟩ := List.mem_map.1 hb; have := hn b0 h0; omega
      · simp only [List.mem_singleton] at hb; subst hb; simp [levels])
  obtain ⟨b, hb⟩ := hok
  have hends : EndsInCopy (shape (.seq k i f parameters out (subs ++ [.leaf copy [] none]) : B P O C)) := by
    rw [hsh]
    refine .parts _ _ hact ?_
    intro b hb
    obtain ⟨b0, h0, rfl⟩ := List.mem_map.1 hb; exact (hsubs b0 h0).1
  have hpne : paramsOf (.seq k i f parameters out (subs ++ [.leaf copy [] none]) : B P O C) ≠ [] := by
    intro e; simp only [paramsOf] at e; rw [e] at hp; cases hp
  obtain ⟨h1, h2, h3, h4⟩ := C58_chained path isPath n _ b hb hpne
  have hx : ∃ x, outOf b = some x := by
    have hsb : shape b = .parts (subs.map shape ++ [.one true copy.act]) := by rw [h3, hsh]
    cases h1 with
    | leaf => simp [shape] at hsb
    | seq k i f s o subs' last given e1 e2 e3 e4 =>
      simp only [shape, Shape.parts.injEq, shapes_eq, List.map_append, List.map_cons, List.map_nil] at hsb
      obtain ⟨-, e⟩ := List.append_inj' hsb rfl
      simp only [List.cons.injEq, and_true] at e
      have hcl : copies last = true := by
        cases last with
        | leaf => simp only [shape, Shape.one.injEq] at e; exact e.1
        | seq => simp [shape] at e
      obtain ⟨x, hx, -⟩ := e3 hcl
      exact ⟨x, hx⟩
  obtain ⟨x, hx⟩ := hx
  refine ⟨b, x, hb, hx, fun y hy => ?_, fun fs c hc => ?_⟩
  · have := h4 y (by simp [outOf, hy])
    rw [hx] at this; exact Option.some.inj this
  · have := C58_flow path isPath hpath n _ b hb hends p hp x hx fs
    rw [this, hsh]
    simp only [steps, stepsAll_snoc, after_append]
    have hst : stepsAll (subs.map shape) = (subs.map shape).flatMap steps := by
      generalize subs.map shape = l
      induction l with
      | nil => rfl
      | cons a l ih => simp [stepsAll, ih]
    rw [hst, hc]
    simp [after, hact]

/-- Finding: a sequential builder without sub-builders can be made, but not be part of another one. -/
theorem C58_empty_part (path : O → P) (isPath : P → Bool) (n : Nat) (k copy : Kind P O C) (i : Option Nat) (f : O → Option O → O)
    (ps : List P) (out : Option O) :
    new path isPath (n + 2) k copy i f ps out [] = .ok (.seq k i f ps out []) ∧
    ∀ b', new path isPath (n + 2) k copy i f ps out [.seq k i f ps out []] ≠ .ok b' := by
  refine ⟨rfl, fun b' h => ?_⟩
  have hnew : new path isPath (n + 2) k copy i f ps out [.seq k i f ps out []] =
      chain path isPath (n + 2) (.seq k i f ps out [.seq k i f ps out [], .leaf copy [] none]) := rfl
  rw [hnew] at h
  obtain ⟨h1, -⟩ := (chain_iff path isPath (n + 2) _).1 ⟨b', h⟩
  simp only [shape, shapes] at h1
  cases h1 with
  | parts l _ h2 =>
    have := h2 (.parts []) (by simp)
    cases this with
    | parts l h _ => exact h rfl

/-! ### A concrete case -/

/-- Parameters are paths or options; the builders append to the name of their first input. -/
def nameOf (ext : Str) (l : List (Str ⊕ Nat)) : Str :=
  match l.find? Sum.isLeft with
  | some (.inl p) => p ++ ext
  | _ => ext

def kind0 (ext : Str) : Kind (Str ⊕ Nat) Str Str := ⟨false, fun _ => [], nameOf ext, fun c => c.getD [] ++ ext⟩
def copy0 : Kind (Str ⊕ Nat) Str Str := ⟨true, fun _ => [], nameOf [], fun c => c.getD []⟩

/-- A document that is rendered to tex and pdf by a builder, which is part of one that goes on to svg. -/
def pdf0 : B (Str ⊕ Nat) Str Str := .seq (kind0 "p".toList) (some 0) (fun o n => n.getD o ++ "!".toList) [] none
  [.leaf (kind0 ".tex".toList) [] none, .leaf (kind0 ".pdf".toList) [] none, .leaf copy0 [] none]

example : EndsInCopy (shape pdf0) ∧ NoneEmpty (shape pdf0) ∧ levels (shape pdf0) = 1 := by
  have h : shape pdf0 = .parts ([.one false _, .one false _] ++ [.one true _]) := rfl
  rw [h]
  refine ⟨.parts _ _ (by intro c; rfl) ?_, .parts _ (by simp) ?_, rfl⟩
  · intro b hb; simp at hb; rcases hb with rfl | rfl <;> exact .one ..
  · intro b hb; simp at hb; rcases hb with rfl | rfl | rfl <;> exact .one ..

example : (match new Sum.inl Sum.isLeft 2 (kind0 "s".toList) copy0 none (fun o _ => o) [.inl "a".toList, .inr 7] (some "a.svg".toList)
      [pdf0, .leaf (kind0 ".svg".toList) [] none] with
    | .ok b => (outOf b, run Sum.inl Sum.isLeft b (fun p => if p = .inl "a".toList then some "text".toList else none) (.inl "a.svg".toList))
    | .error _ => (none, none)) = (some "a.svg".toList, some "text.tex.pdf.svg".toList) := by decide

end Verif.Chain
