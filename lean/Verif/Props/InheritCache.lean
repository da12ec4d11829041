import Verif.Spec.InheritCache
import Verif.Props.Classes

/-!
# C103: the entries that a class of contexts does not inherit
-/

namespace Verif.InheritCache

open Verif Verif.Classes Verif.Classes.Spec

variable {mro : Table → Nat → List Nat}

/-! ### Lemmas -/

theorem base_append (T : Table) (x : ClassDef) (b c : Nat) (hc : c < T.length) : Base (T ++ [x]) b c ↔ Base T b c := by
  unfold Base
  rw [List.getElem?_append_left hc]

theorem gives_append (T : Table) (x : ClassDef) (k : Str) (m : Member) (c : Nat) (hc : c < T.length) :
    Gives (T ++ [x]) c k m ↔ Gives T c k m := by
  unfold Gives
  rw [List.getElem?_append_left hc]

theorem derives_lt {T : Table} (hw : WellFormed T) {b c : Nat} (h : Derives T b c) : b < c := by
  induction h with
  | base c d h => exact hw.earlier _ _ h
  | step c s d h _ ih => exact Nat.lt_trans (hw.earlier _ _ h) ih

theorem derives_append (T : Table) (x : ClassDef) (hw : WellFormed T) (hw' : WellFormed (T ++ [x])) (b c : Nat) (hc : c < T.length) :
    Derives (T ++ [x]) b c ↔ Derives T b c := by
  constructor
  · intro h
    induction h with
    | base c d h => exact .base _ _ ((base_append T x _ _ hc).mp h)
    | step c s d h h2 ih =>
      have := derives_lt hw' h2
      exact .step _ s _ ((base_append T x _ _ (by omega)).mp h) (ih hc)
  · intro h
    induction h with
    | base c d h => exact .base _ _ ((base_append T x _ _ hc).mpr h)
    | step c s d h h2 ih =>
      have := derives_lt hw h2
      exact .step _ s _ ((base_append T x _ _ (by omega)).mpr h) (ih hc)

theorem excluded_append (T : Table) (x : ClassDef) (hw : WellFormed T) (hw' : WellFormed (T ++ [x])) (c : Nat) (hc : c < T.length)
    (s : Str) : Excluded (T ++ [x]) c s ↔ Excluded T c s := by
  unfold Excluded
  constructor
  · rintro ⟨b, l, h1, h2, h3⟩
    have hb : b < T.length := by
      rcases h1 with rfl | h1
      · exact hc
      · exact Nat.lt_trans (derives_lt hw' h1) hc
    exact ⟨b, l, h1.imp id (derives_append T x hw hw' b c hc).mp, (gives_append T x _ _ b hb).mp h2, h3⟩
  · rintro ⟨b, l, h1, h2, h3⟩
    have hb : b < T.length := by
      rcases h1 with rfl | h1
      · exact hc
      · exact Nat.lt_trans (derives_lt hw h1) hc
    exact ⟨b, l, h1.imp id (derives_append T x hw hw' b c hc).mpr, (gives_append T x _ _ b hb).mpr h2, h3⟩

/-- What is kept for a class is right. -/
def Right (w : World) : Prop :=
  ∀ c v, w.caches.get? c = some v → c < w.table.length ∧ ∀ s, s ∈ v ↔ Excluded w.table c s

theorem find_right (w : World) (hv : Valid mro w.table) (h : Right w) (c : Nat) (hc : c < w.table.length) :
    Right (find mro w c).1 ∧ ∀ s, s ∈ (find mro w c).2 ↔ Excluded w.table c s := by
  have hval := fun s => C86_values w.table hv.wellFormed (mro w.table) hv.resolves "do_not_inherit".toList hv.object hv.values c s
  unfold find
  split
  · rename_i v hg
    exact ⟨h, (h c v hg).2⟩
  · refine ⟨?_, hval⟩
    intro c' v hg
    rw [Dict.get?_set] at hg
    split at hg
    · rename_i e
      subst e
      cases hg
      exact ⟨hc, hval⟩
    · exact h c' v hg

theorem find_table (w : World) (c : Nat) : (find mro w c).1.table = w.table := by
  unfold find
  split <;> rfl

theorem valid_first : ∀ (es : List Event) (T : Table), History mro T es → Valid mro T
  | [], _, h => h
  | .define _ :: _, _, h => h.1
  | .assign _ _ :: _, _, h => h.elim
  | .find _ :: _, _, h => h.1

theorem run_right (es : List Event) : ∀ w : World, Right w → History mro w.table es →
    Right (run mro w es) ∧ Valid mro (run mro w es).table := by
  induction es with
  | nil => exact fun w h1 h2 => ⟨h1, h2⟩
  | cons x es ih =>
    intro w h1 h2
    cases x with
    | assign c l => exact h2.elim
    | define d =>
      refine ih { w with table := w.table ++ [d] } ?_ h2.2
      intro c v hg
      obtain ⟨k1, k2⟩ := h1 c v hg
      refine ⟨by rw [List.length_append]; omega, fun s => ?_⟩
      rw [k2]
      exact (excluded_append w.table d h2.1.wellFormed (valid_first es _ h2.2).wellFormed c k1 s).symm
    | find c =>
      have hr := (find_right w h2.1 h1 c h2.2.1).1
      exact ih (find mro w c).1 hr (by rw [find_table]; exact h2.2.2)

/-! ### Theorems -/

/-- In every history of definitions of classes and of searches, the entries found for a class are those that the class itself and the
classes it derives from name. -/
theorem C103_excluded (T : Table) (es : List Event) (h : History mro T es) (c : Nat)
    (hc : c < (run mro ⟨T, []⟩ es).table.length) (s : Str) :
    s ∈ (find mro (run mro ⟨T, []⟩ es) c).2 ↔ Excluded (run mro ⟨T, []⟩ es).table c s := by
  obtain ⟨h1, h2⟩ := run_right es ⟨T, []⟩ (fun c v h => by cases h) h
  exact (find_right _ h2 h1 c hc).2 s

/-! ### Concrete classes -/

/-- The method resolution order of classes with one base. -/
def lineN (T : Table) : Nat → Nat → List Nat
  | 0, c => [c]
  | n + 1, c => c :: match bases T c with
    | b :: _ => lineN T n b
    | [] => []

def line (T : Table) (c : Nat) : List Nat := lineN T (c + 1) c

/-- `object`, `BaseContext`, `DocumentContext`. -/
def contexts : Table :=
  [⟨[], []⟩, ⟨[0], [("do_not_inherit".toList, .values [])]⟩, ⟨[1], [("do_not_inherit".toList, .values ["title".toList])]⟩]

theorem contexts_base (b c : Nat) : Base contexts b c ↔ (b = 0 ∧ c = 1) ∨ (b = 1 ∧ c = 2) := by
  rw [base_iff]
  match c with
  | 0 => simp [bases, contexts]
  | 1 => simp [bases, contexts]
  | 2 => simp [bases, contexts]
  | n + 3 => simp [bases, contexts]

theorem contexts_derives (b c : Nat) : Derives contexts b c ↔ (b = 0 ∧ c = 1) ∨ (b = 1 ∧ c = 2) ∨ (b = 0 ∧ c = 2) := by
  constructor
  · intro h
    induction h with
    | base c d h => rcases (contexts_base _ _).mp h with h | h <;> simp [h]
    | step c s d h _ ih =>
      rcases (contexts_base _ _).mp h with h | h <;> rcases ih with k | k | k <;> omega
  · rintro (⟨rfl, rfl⟩ | ⟨rfl, rfl⟩ | ⟨rfl, rfl⟩)
    · exact .base _ _ ((contexts_base _ _).mpr (.inl ⟨rfl, rfl⟩))
    · exact .base _ _ ((contexts_base _ _).mpr (.inr ⟨rfl, rfl⟩))
    · exact .step _ 1 _ ((contexts_base _ _).mpr (.inl ⟨rfl, rfl⟩)) (.base _ _ ((contexts_base _ _).mpr (.inr ⟨rfl, rfl⟩)))

theorem contexts_valid : Valid line contexts := by
  refine ⟨wellFormed_of _ (by decide) (by decide), ?_, ?_, ?_⟩
  · intro c
    refine ⟨⟨_, rfl⟩, fun b => ?_⟩
    rw [contexts_derives]
    match c with
    | 0 => simp [line, lineN, bases, contexts]
    | 1 => simp [line, lineN, bases, contexts]
    | 2 => simp [line, lineN, bases, contexts]
    | n + 3 => simp [line, lineN, bases, contexts]
  · rintro m ⟨x, hx, hm⟩
    cases hx
    cases hm
  · rintro c m ⟨x, hx, hm⟩
    match c with
    | 0 => cases hx; cases hm
    | 1 => cases hx; cases hm; exact ⟨_, rfl⟩
    | 2 => cases hx; cases hm; exact ⟨_, rfl⟩
    | n + 3 => cases hx

example : History line contexts [.find 1, .find 2, .find 2] :=
  ⟨contexts_valid, by decide, contexts_valid, by decide, contexts_valid, by decide, contexts_valid⟩

example : (find line (run line ⟨contexts, []⟩ [.find 1, .find 2]) 2).2 = ["title".toList] ∧
    (find line (run line ⟨contexts, []⟩ [.find 2, .find 1]) 1).2 = [] := by decide +kernel

/-- An attribute that is set after a search has no effect, and it has one if there was no search before (finding). -/
theorem C103_assign_refuted :
    (find line (run line ⟨contexts, []⟩ [.find 2, .assign 2 ["author".toList]]) 2).2 = ["title".toList] ∧
    (find line (run line ⟨contexts, []⟩ [.assign 2 ["author".toList]]) 2).2 = ["author".toList] := by decide +kernel

end Verif.InheritCache
