import Verif.Spec.BuilderActive
import Verif.Lemmas.Dict

/-!
# C105: the test for active builders
-/

namespace Verif.BuilderActive

open Verif

/-! ### Lemmas -/

theorem compute_iff (found : Str → Bool) (c : Cls) : compute found c = true ↔ Meets found c := by
  have h3 : (c.execs.toList.isEmpty = false → c.execs.toList.all found = true) ↔
      ∀ l, (c.execs = .tuple l ∨ c.execs = .other l) → ∀ e ∈ l, found e = true := by
    cases he : c.execs with
    | none => simp [Execs.toList]
    | tuple l =>
      cases l <;> simp [Execs.toList]
    | other l =>
      cases l <;> simp [Execs.toList]
  have h2 : c.execs.isTuple = true ↔ ∃ l, c.execs = .tuple l := by
    cases c.execs <;> simp [Execs.isTuple]
  unfold Meets
  rw [← h3, ← h2]
  unfold compute
  simp only [List.contains_eq_mem]
  by_cases a1 : "priority".toList ∈ c.requirements <;> by_cases a2 : "required_execs".toList ∈ c.requirements <;>
    by_cases a3 : "all_execs".toList ∈ c.requirements <;> simp only [a1, a2, a3, decide_true, decide_false] <;>
    cases c.priority <;> cases c.execs.isTuple <;> cases c.execs.toList.isEmpty <;> cases c.execs.toList.all found <;> simp

theorem run_kept (n : Str) (b : Bool) (es : List Event) : ∀ w : World, w.cache.get? n = some b → (run w es).cache.get? n = some b := by
  induction es with
  | nil => exact fun w h => h
  | cons x es ih =>
    intro w h
    cases x with
    | install f => exact ih { w with found := f } h
    | ask c =>
      refine ih (active w c).1 ?_
      unfold active
      split
      · exact h
      · rename_i hn
        show (w.cache.set c.name _).get? n = some b
        rw [Dict.get?_set]
        split
        · rename_i e
          rw [e, h] at hn
          cases hn
        · exact h

/-- What is kept was computed for a class that was asked. -/
theorem run_asked (found : Str → Bool) (es : List Event) (hn : NoChange es) : ∀ w : World, w.found = found →
    (run w es).found = found ∧ ∀ n b, (run w es).cache.get? n = some b →
      w.cache.get? n = some b ∨ ∃ c, Event.ask c ∈ es ∧ c.name = n ∧ b = compute found c := by
  induction es with
  | nil => exact fun w h => ⟨h, fun n b hb => .inl hb⟩
  | cons x es ih =>
    intro w h
    cases x with
    | install f => exact absurd (List.mem_cons_self ..) (hn f)
    | ask c =>
      have hf : (active w c).1.found = found := by unfold active; split <;> exact h
      obtain ⟨h1, h2⟩ := ih (fun f hf => hn f (List.mem_cons_of_mem _ hf)) (active w c).1 hf
      refine ⟨h1, fun n b hb => ?_⟩
      rcases h2 n b hb with h3 | ⟨c', h3, h4⟩
      · unfold active at h3
        split at h3
        · exact .inl h3
        · have h3 : (w.cache.set c.name (compute w.found c)).get? n = some b := h3
          rw [Dict.get?_set] at h3
          split at h3
          · rename_i e
            exact .inr ⟨c, List.mem_cons_self .., e, by rw [← h]; exact (Option.some.inj h3).symm⟩
          · exact .inl h3
      · exact .inr ⟨c', List.mem_cons_of_mem _ h3, h4⟩

/-! ### Theorems -/

/-- A builder class whose name was not asked before is active exactly if all that it requires is there. -/
theorem C105_first (found : Str → Bool) (c : Cls) : (active ⟨[], found⟩ c).2 = true ↔ Meets found c := compute_iff found c

/-- In every history without changes of programs, and with classes that have different names, a class is active exactly if all that it
requires is there. -/
theorem C105_history_partial (found : Str → Bool) (es : List Event) (c : Cls) (hn : NoChange es) (hd : DifferentNames (.ask c :: es)) :
    (active (run ⟨[], found⟩ es) c).2 = true ↔ Meets found c := by
  obtain ⟨h1, h2⟩ := run_asked found es hn ⟨[], found⟩ rfl
  rw [← compute_iff]
  unfold active
  split
  · rename_i b hb
    rcases h2 _ _ hb with h | ⟨c', h3, h4, h5⟩
    · cases h
    · have e := hd c c' (List.mem_cons_self ..) (List.mem_cons_of_mem _ h3) h4.symm
      subst e
      show b = true ↔ _
      rw [h5]
  · show compute (run ⟨[], found⟩ es).found c = true ↔ _
    rw [h1]

/-- The answer for a name never changes. -/
theorem C105_kept (w : World) (c : Cls) (es : List Event) (c' : Cls) (h : c'.name = c.name) :
    (active (run (active w c).1 es) c').2 = (active w c).2 := by
  have hk : (active w c).1.cache.get? c.name = some (active w c).2 := by
    unfold active
    split
    · rename_i b hb
      exact hb
    · exact Dict.get?_set_self ..
  have := run_kept c.name _ es _ hk
  rw [← h] at this
  generalize run (active w c).1 es = w' at this ⊢
  generalize (active w c).2 = b at this ⊢
  unfold active
  rw [this]

/-- A class without requirements, and one that requires a program. -/
def plain : Cls := ⟨['B'], [], false, .none⟩
def needy : Cls := ⟨['B'], ["all_execs".toList], true, .tuple [['x']]⟩

/-- Two classes with one name have the answer of the first that is asked (finding). -/
theorem C105_names_refuted : (active (run ⟨[], fun _ => false⟩ [.ask plain]) needy).2 = true ∧ ¬ Meets (fun _ => false) needy := by
  refine ⟨by decide +kernel, ?_⟩
  rw [← compute_iff]
  decide +kernel

/-- A program that is installed later, or removed, is not noticed (finding). -/
theorem C105_installed_refuted :
    (active (run ⟨[], fun _ => false⟩ [.ask needy, .install fun _ => true]) needy).2 = false ∧ Meets (fun _ => true) needy ∧
    (active (run ⟨[], fun _ => true⟩ [.ask needy, .install fun _ => false]) needy).2 = true ∧ ¬ Meets (fun _ => false) needy := by
  refine ⟨by decide +kernel, ?_, by decide +kernel, ?_⟩
  · rw [← compute_iff]; decide +kernel
  · rw [← compute_iff]; decide +kernel

/-! A history with two classes that have different names. -/

example : NoChange [.ask plain, .ask { needy with name := ['C'] }] ∧
    DifferentNames [.ask { needy with name := ['C'] }, .ask plain, .ask { needy with name := ['C'] }] := by
  refine ⟨fun f h => by simp at h, fun c c' h h' e => ?_⟩
  simp only [List.mem_cons, Event.ask.injEq, List.not_mem_nil, or_false] at h h'
  rcases h with rfl | rfl | rfl <;> rcases h' with rfl | rfl | rfl <;> first | rfl | (exact absurd e (by decide))

end Verif.BuilderActive
