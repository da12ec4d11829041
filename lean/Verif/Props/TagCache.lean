import Verif.Spec.TagCache
import Verif.Props.Tags

/-!
# C102: the search for tag classes while classes are defined
-/

namespace Verif.TagCache

open Verif Verif.Tags

/-! ### Lemmas -/

theorem repeats_iff (cs : List TagClass) : tagClasses cs [] = none ↔ Repeats cs := by
  have := C46_classes cs
  unfold Repeats
  rw [show (fun c : TagClass => c.name :: c.aliases) = namesOf from rfl, ← this]
  cases tagClasses cs [] <;> simp

theorem repeats_insert (cs : List TagClass) (i : Nat) (c : TagClass) (h : Repeats cs) : Repeats (cs.take i ++ c :: cs.drop i) := by
  intro hn
  refine h (hn.sublist ?_)
  conv => lhs; rw [← List.take_append_drop i cs]
  rw [List.flatMap_append, List.flatMap_append, List.flatMap_cons]
  exact List.Sublist.append_left (List.sublist_append_right ..) _

theorem run_cached (lower : Str → Str) (d : Dict Str TagClass) (es : List Event) :
    ∀ cs, (run lower ⟨cs, some d⟩ es).cache = some d := by
  induction es with
  | nil => intro cs; rfl
  | cons x es ih =>
    intro cs
    cases x with
    | define i c => exact ih _
    | search a n => exact ih _

theorem run_failed (lower : Str → Str) (es : List Event) :
    ∀ cs, Repeats cs → (run lower ⟨cs, none⟩ es).cache = none ∧ Repeats (run lower ⟨cs, none⟩ es).classes := by
  induction es with
  | nil => intro cs h; exact ⟨rfl, h⟩
  | cons x es ih =>
    intro cs h
    cases x with
    | define i c => exact ih _ (repeats_insert cs i c h)
    | search a n =>
      have e : step lower ⟨cs, none⟩ (.search a n) = ⟨cs, none⟩ := by
        simp only [step, search, (repeats_iff cs).mpr h]
      show (run lower (step lower ⟨cs, none⟩ (.search a n)) es).cache = none ∧ Repeats (run lower (step lower ⟨cs, none⟩ (.search a n)) es).classes
      rw [e]
      exact ih cs h

/-- The classes at the first search decide all searches. -/
theorem first_decides (lower : Str → Str) (es : List Event) (inactive : List Str) (name : Str) :
    ∀ cs, (search lower (run lower ⟨cs, none⟩ es) inactive name).2 =
      (tagClasses (atFirst cs es) []).map fun d => tagClass lower d inactive name := by
  induction es with
  | nil =>
    intro cs
    simp only [run, List.foldl_nil, search, atFirst]
    cases tagClasses cs [] <;> rfl
  | cons x es ih =>
    intro cs
    cases x with
    | define i c => exact ih _
    | search a n =>
      simp only [atFirst]
      cases hd : tagClasses cs [] with
      | none =>
        obtain ⟨h1, h2⟩ := run_failed lower (.search a n :: es) cs ((repeats_iff cs).mp hd)
        simp only [search, h1, (repeats_iff _).mpr h2, Option.map_none]
      | some d =>
        have e : step lower ⟨cs, none⟩ (.search a n) = ⟨cs, some d⟩ := by simp only [step, search, hd]
        have h1 : (run lower ⟨cs, none⟩ (.search a n :: es)).cache = some d := by
          show (run lower (step lower ⟨cs, none⟩ (.search a n)) es).cache = some d
          rw [e]
          exact run_cached lower d es cs
        simp only [search, h1, Option.map_some]

/-! ### Theorems -/

/-- A search raises exactly if a name or an alias was there twice at the time of the first search. It then raises for ever, and otherwise
never. -/
theorem C102_raises (lower : Str → Str) (cs : List TagClass) (es : List Event) (inactive : List Str) (name : Str) :
    (search lower (run lower ⟨cs, none⟩ es) inactive name).2 = none ↔ Repeats (atFirst cs es) := by
  rw [first_decides, Option.map_eq_none_iff, repeats_iff]

/-- Otherwise the class is the one of this name or alias at the time of the first search, if it is active and not one of the inactive tags
of the context. -/
theorem C102_found (lower : Str → Str) (cs : List TagClass) (es : List Event) (inactive : List Str) (name : Str) (c : TagClass) :
    (search lower (run lower ⟨cs, none⟩ es) inactive name).2 = some (some c) ↔
      ¬ Repeats (atFirst cs es) ∧ c ∈ atFirst cs es ∧ lower name ∈ c.name :: c.aliases ∧ c.active = true ∧ c.name ∉ inactive := by
  rw [first_decides, ← repeats_iff]
  cases hd : tagClasses (atFirst cs es) [] with
  | none => simp
  | some d =>
    rw [Option.map_some, Option.some.injEq, C46_class lower _ d hd]
    simp [namesOf]

/-- It is the class `Tag` if there is no such class. -/
theorem C102_generic (lower : Str → Str) (cs : List TagClass) (es : List Event) (inactive : List Str) (name : Str) :
    (search lower (run lower ⟨cs, none⟩ es) inactive name).2 = some none ↔
      ¬ Repeats (atFirst cs es) ∧
      ∀ c ∈ atFirst cs es, lower name ∈ c.name :: c.aliases → c.active = false ∨ c.name ∈ inactive := by
  rw [first_decides, ← repeats_iff]
  cases hd : tagClasses (atFirst cs es) [] with
  | none => simp
  | some d =>
    rw [Option.map_some, Option.some.injEq, C46_generic lower _ d hd]
    simp [namesOf]

/-! ### Concrete classes -/

def bold : TagClass := ⟨['b', 'o', 'l', 'd'], [['b']], true⟩
def box : TagClass := ⟨['b', 'o', 'x'], [['b']], true⟩
def note : TagClass := ⟨['n', 'o', 't', 'e'], [], true⟩

example : ¬ Repeats [bold, note] ∧ Repeats [bold, box] := by unfold Repeats; decide +kernel

example : (search id (run id ⟨[bold], none⟩ [.define 0 note, .search [] ['x']]) [] ['n', 'o', 't', 'e']).2 = some (some note) := by
  decide +kernel

/-- A class that is defined after a search is not found, and its tags are generic (finding). -/
theorem C102_late_refuted :
    (search id (run id ⟨[bold], none⟩ [.search [] ['x'], .define 1 note]) [] ['n', 'o', 't', 'e']).2 = some none := by decide +kernel

/-- A class that takes a name of another makes all tags fail, also those with other names, or has no effect, depending on whether there was
a search before (finding). -/
theorem C102_clash_refuted :
    (search id (run id ⟨[bold, note], none⟩ [.define 2 box]) [] ['n', 'o', 't', 'e']).2 = none ∧
    (search id (run id ⟨[bold, note], none⟩ [.search [] ['x'], .define 2 box]) [] ['b']).2 = some (some bold) := by decide +kernel

end Verif.TagCache
