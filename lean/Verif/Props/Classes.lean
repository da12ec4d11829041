import Verif.Lemmas.Classes

/-!
# C86: the classes of tags, builders and scanners, and weak attributes
-/

namespace Verif.Classes

open Verif Verif.Classes.Spec

/-! ### Concrete classes -/

/-- `object`, a base class with a set of keys and a weak attribute, two classes derived from it, one of
which has a derived class. -/
def sample : Table :=
  [⟨[], []⟩,
   ⟨[0], [("do_not_inherit".toList, .values ["a".toList]), ("context".toList, .weak 0)]⟩,
   ⟨[1], [("do_not_inherit".toList, .values ["b".toList]), ("environment".toList, .weak 1)]⟩,
   ⟨[1], [("context".toList, .weak 2)]⟩,
   ⟨[3], []⟩]

theorem base_iff (T : Table) (b c : Nat) : Base T b c ↔ b ∈ bases T c := (mem_bases b c).symm

theorem wellFormed_of (T : Table) (h1 : ∀ c < T.length, ∀ b ∈ bases T c, b < c)
    (h2 : ∀ x ∈ T, x.own.keys.Nodup) : WellFormed T := by
  refine ⟨?_, ?_⟩
  · intro b c h
    obtain ⟨x, hx, _⟩ := id h
    exact h1 c (List.getElem?_eq_some_iff.1 hx).1 b ((base_iff T b c).1 h)
  · intro c x hx
    exact h2 x (List.mem_of_getElem? hx)

theorem sample_wellFormed : WellFormed sample := wellFormed_of sample (by decide) (by decide)

/-! ### Subclasses and parents -/

/-- C86. The classes found for a class are exactly those that derive from it, directly or not: no class of tags,
builders, scanners or checkers is missed, at any depth. -/
theorem C86_subclasses (T : Table) (hT : WellFormed T) (c d : Nat) : d ∈ allSubclasses T c ↔ Derives T c d :=
  mem_allSubclassesN hT T.length c d (by omega)

example : allSubclasses sample 1 = [2, 3, 4] ∧ allSubclasses sample 4 = [] := by decide

/-- With several bases, a class can be found more than once. -/
example : allSubclasses [⟨[], []⟩, ⟨[0], []⟩, ⟨[0], []⟩, ⟨[1, 2], []⟩] 0 = [1, 2, 3, 3] := by decide

/-- C86. The parents found for a class are exactly those it derives from, except that `object` is only
found for the classes that name it, or nothing, as their base. -/
theorem C86_parents (T : Table) (hT : WellFormed T) (b c : Nat) :
    b ∈ allParents T c ↔ Base T b c ∨ (b ≠ object ∧ Derives T b c) := mem_allParents hT b c

example : allParents sample 4 = [3, 1] ∧ allParents sample 1 = [0] := by decide

/-- C86. The values of an attribute, such as the keys a context does not inherit, for a class: those that the
class itself or any class it derives from gives, all together. -/
theorem C86_values (T : Table) (hT : WellFormed T) (mro : Nat → List Nat) (hm : Resolves T mro) (k : Str)
    (hobj : ∀ m, ¬ Gives T object k m) (hval : ∀ c m, Gives T c k m → ∃ l, m = .values l) (c : Nat) (s : Str) :
    s ∈ allValues T mro c k ↔ ∃ b l, (b = c ∨ Derives T b c) ∧ Gives T b k (.values l) ∧ s ∈ l := by
  unfold allValues
  rw [List.mem_flatMap]
  constructor
  · rintro ⟨b, hb, hs⟩
    cases e : lookup T mro b k with
    | none => rw [e] at hs; simp at hs
    | some m =>
      rw [e] at hs
      obtain ⟨a, ha, hg⟩ := lookup_some hm e
      obtain ⟨l, rfl⟩ := hval a m hg
      refine ⟨a, l, ?_, hg, hs⟩
      have hb' : b = c ∨ Derives T b c := by
        rcases List.mem_cons.1 hb with rfl | hb
        · exact .inl rfl
        · rcases (mem_allParents hT b c).1 hb with h | h
          · exact .inr (.base _ _ h)
          · exact .inr h.2
      rcases ha with rfl | ha
      · exact hb'
      · rcases hb' with rfl | hb'
        · exact .inr ha
        · exact .inr (derives_trans ha hb')
  · rintro ⟨b, l, hb, hg, hs⟩
    refine ⟨b, ?_, ?_⟩
    · rcases hb with rfl | hb
      · exact List.mem_cons_self
      · have : b ≠ object := by rintro rfl; exact hobj _ hg
        exact List.mem_cons_of_mem _ ((mem_allParents hT b c).2 (.inr ⟨this, hb⟩))
    · rw [lookup_own hm hg]; exact hs

/-- The method resolution order of the sample. -/
def sampleMro : Nat → List Nat
  | 0 => [0] | 1 => [1, 0] | 2 => [2, 1, 0] | 3 => [3, 1, 0] | 4 => [4, 3, 1, 0] | n => [n]

example : allValues sample sampleMro 2 "do_not_inherit".toList = ["b".toList, "a".toList] ∧
    allValues sample sampleMro 4 "do_not_inherit".toList = ["a".toList, "a".toList, "a".toList] := by decide

/-! ### All the entries of a class -/

/-- C86. The entries of a class and all its parents together. With single inheritance, and for names that
`object` does not have, the value of a class is found before those of its parents.

Partial: with several bases it is false, see `C86_dicts_refuted`. -/
theorem C86_dicts_partial (T : Table) (hT : WellFormed T) (hl : Linear T) (k : Str) (hobj : ∀ m, ¬ Gives T object k m)
    (c : Nat) (hc : c < T.length) (m : Member) : (allDicts T c).get? k = some m ↔ Nearest T k c m :=
  allDicts_nearest hT hl k hobj c hc m

theorem linear_of (T : Table) (h : ∀ x ∈ T, x.bases.length ≤ 1) : Linear T :=
  fun _ x hx => h x (List.mem_of_getElem? hx)

example : Linear sample ∧ (allDicts sample 4).get? "context".toList = some (.weak 2) ∧
    (allDicts sample 2).get? "context".toList = some (.weak 0) := ⟨linear_of _ (by decide), by decide, by decide⟩

/-- A class with two bases: one derives from `X`, the other from `Y`, which derives from `X`. Both `X` and
`Y` have the weak attribute `context`. -/
def diamond : Table :=
  [⟨[], []⟩,
   ⟨[0], [("context".toList, .weak 0)]⟩,
   ⟨[1], [("context".toList, .weak 1)]⟩,
   ⟨[1], []⟩,
   ⟨[2], []⟩,
   ⟨[3, 4], []⟩]

/-- The method resolution order of these classes. -/
def diamondMro : Nat → List Nat
  | 0 => [0] | 1 => [1, 0] | 2 => [2, 1, 0] | 3 => [3, 1, 0] | 4 => [4, 2, 1, 0] | 5 => [5, 3, 4, 2, 1, 0] | n => [n]

/-- Finding: "precedence is given to the subclasses over parent classes" does not hold with several bases. The
entry of `X` (1) is taken, although `Y` (2) derives from `X`; Python itself takes that of `Y`. -/
theorem C86_dicts_refuted : WellFormed diamond ∧ Derives diamond 1 2 ∧
    lookup diamond diamondMro 5 "context".toList = some (.weak 1) ∧
    (allDicts diamond 5).get? "context".toList = some (.weak 0) := by
  refine ⟨wellFormed_of _ (by decide) (by decide), .base _ _ ?_, by decide, by decide⟩
  rw [base_iff]; decide

/-! ### Weak attributes -/

/-- C86. Weak attributes, such as the context of a tag or a builder. After any assignments, deletions, readings
(of any attributes of any objects, also some that raise) and any disappearances of objects: a weak attribute of an
object has the value that was last assigned to this attribute of this object, if it was not deleted since and the value
is still there, and otherwise `None`. Reading never raises.

Partial: single inheritance; with several bases reading may raise, see `C86_weak_refuted`. -/
theorem C86_weak_partial (p : Program) (hp : Plain p) (es : List Event) (obj : Nat) (name : Str)
    (hw : Weak p obj name) :
    ∃ v, read p (run p es) obj name = some (.ok v) ∧
      ∀ x, v = some x ↔ lastAssigned obj name es.reverse = some x ∧ Event.gone x ∉ es := by
  obtain ⟨d, hd⟩ := hw
  rw [← descriptor_iff hp] at hd
  have hi := inv_run hp es
  obtain ⟨ns, e1, i1⟩ := attrname_found hp (hi.touch obj) hd
  unfold read
  rw [hd]
  simp only [Option.map_some, get, e1]
  refine ⟨_, rfl, ?_⟩
  intro x
  rw [i1.refs obj name d hd]
  cases e : lastAssigned obj name es.reverse with
  | none => simp
  | some v =>
    have hg := hi.gone v
    show (if v ∈ (run p es).gone then none else some v) = some x ↔ _
    by_cases hv : v ∈ (run p es).gone
    · rw [if_pos hv]
      constructor
      · intro h; cases h
      · rintro ⟨h1, h2⟩
        cases h1
        exact absurd (hg.1 hv) h2
    · rw [if_neg hv]
      constructor
      · intro h; cases h; exact ⟨rfl, fun hh => hv (hg.2 hh)⟩
      · exact fun h => h.1

/-- Objects with an even number are of class 2 of the sample, the others of class 4. -/
def sampleProgram : Program := ⟨sample, sampleMro, fun o => if o % 2 = 0 then 2 else 4⟩

theorem gives_iff (T : Table) (c : Nat) (k : Str) (m : Member) : Gives T c k m ↔ (own T c).get? k = some m := (get_own c k m).symm

/-- The weak attributes given in the sample. -/
theorem sample_gives (c : Nat) (k : Str) (d : Nat) (h : Gives sample c k (.weak d)) :
    (k = "context".toList ∧ (d = 0 ∨ d = 2)) ∨ (k = "environment".toList ∧ d = 1) := by
  obtain ⟨x, hx, hk⟩ := h
  have hm := Dict.mem_of_get? _ _ _ hk
  have : ∀ x ∈ sample, ∀ kv ∈ x.own, ∀ d ∈ [0, 1, 2], kv.2 = .weak d →
      (kv.1 = "context".toList ∧ (d = 0 ∨ d = 2)) ∨ (kv.1 = "environment".toList ∧ d = 1) := by decide
  have hd : ∀ x ∈ sample, ∀ kv ∈ x.own, ∀ d, kv.2 = .weak d → d ∈ [0, 1, 2] := by
    simp [sample]
    constructor <;> rintro a b (⟨_, rfl⟩ | ⟨_, rfl⟩) d h <;> simp at h <;> omega
  have hx' := List.mem_of_getElem? hx
  exact this x hx' _ hm d (hd x hx' _ hm d rfl) rfl

theorem sample_plain : Plain sampleProgram where
  wellFormed := sample_wellFormed
  linear := linear_of _ (by decide)
  resolves := by
    intro c
    have hb : ∀ b, Base sample b c ↔ b ∈ bases sample c := fun b => base_iff sample b c
    match c with
    | 0 => exact ⟨fun b h => by rw [show sampleProgram.table = sample from rfl, hb] at h; simp [bases, sample] at h, fun _ => rfl⟩
    | 1 | 2 | 3 | 4 =>
      refine ⟨fun b h => ?_, fun h => absurd ⟨_, (hb _).2 List.mem_cons_self⟩ h⟩
      rw [show sampleProgram.table = sample from rfl, hb] at h
      simp [bases, sample] at h
      subst h; rfl
    | n + 5 => exact ⟨fun b h => by rw [show sampleProgram.table = sample from rfl, hb] at h; simp [bases, sample] at h, fun _ => rfl⟩
  oneName := by
    intro c c' k k' d h h'
    rcases sample_gives c k d h with ⟨h1, h2⟩ | ⟨h1, h2⟩ <;> rcases sample_gives c' k' d h' with ⟨h3, h4⟩ | ⟨h3, h4⟩
    · rw [h1, h3]
    · omega
    · omega
    · rw [h1, h3]
  known := by intro obj; simp only [sampleProgram]; split <;> decide
  noObject := by
    intro c k d _ m h
    obtain ⟨x, hx, hk⟩ := h
    simp [sampleProgram, sample, object] at hx
    subst hx
    simp [Dict.get?] at hk

/-- Object 0 gets the context 10 and the environment 11; then `None` is assigned to its context, which keeps
it; object 1 gets the context 12, and object 12 goes. -/
example : Weak sampleProgram 0 "context".toList ∧
    (let es := [Event.assign 0 "context".toList (some 10), .assign 0 "environment".toList (some 11),
      .assign 0 "context".toList none, .assign 1 "context".toList (some 12), .gone 12]
     read sampleProgram (run sampleProgram es) 0 "context".toList = some (.ok (some 10)) ∧
     read sampleProgram (run sampleProgram es) 0 "environment".toList = some (.ok (some 11)) ∧
     read sampleProgram (run sampleProgram es) 1 "context".toList = some (.ok none)) := by
  refine ⟨⟨0, (descriptor_iff sample_plain _ _ _).1 (by decide)⟩, by rfl, by rfl, by rfl⟩

/-- Finding: in the class with two bases, the weak attribute that Python finds does not find its own name, and
reading it raises an `AttributeError`. -/
theorem C86_weak_refuted :
    read ⟨diamond, diamondMro, fun _ => 5⟩ ⟨[], [], []⟩ 0 "context".toList = some (.error .attributeError) := by rfl

/-- C86. A deletion raises exactly if there is nothing to delete: nothing was assigned since the last deletion. -/
theorem C86_delete_partial (p : Program) (hp : Plain p) (es : List Event) (obj : Nat) (name : Str) (d : Nat)
    (hd : descriptor p obj name = some d) :
    (Classes.delete p (run p es) obj d).2 =
      (if lastAssigned obj name es.reverse = none then .error .keyError else .ok ()) := by
  have hi := inv_run hp es
  obtain ⟨ns, e1, i1⟩ := attrname_found hp (hi.touch obj) hd
  simp only [Classes.delete, e1]
  have := i1.refs obj name d hd
  cases e : lastAssigned obj name es.reverse with
  | none =>
    rw [e] at this
    rw [if_neg (by simp [Dict.has, this])]
    simp
  | some v =>
    rw [e] at this
    rw [if_pos (by simp [Dict.has, this])]
    simp

example : descriptor sampleProgram 0 "environment".toList = some 1 ∧
    (Classes.delete sampleProgram (run sampleProgram [.assign 0 "environment".toList (some 3), .delete 0 "environment".toList]) 0 1).2 =
      .error .keyError := ⟨by decide, by rfl⟩

end Verif.Classes
