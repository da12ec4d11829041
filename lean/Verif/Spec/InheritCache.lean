import Verif.Spec.Classes
import Verif.Model.InheritCache

/-!
# Specification of the entries that a class of contexts does not inherit
-/

namespace Verif.InheritCache

open Verif Verif.Classes Verif.Classes.Spec

/-- The class `c`, or one that it derives from, names the entry `s`. -/
def Excluded (T : Table) (c : Nat) (s : Str) : Prop :=
  ∃ b l, (b = c ∨ Derives T b c) ∧ Gives T b "do_not_inherit".toList (.values l) ∧ s ∈ l

/-- A program with its classes: bases come before, the method resolution order is one, and the attribute is a collection for all classes
but `object`. -/
structure Valid (mro : Table → Nat → List Nat) (T : Table) : Prop where
  wellFormed : WellFormed T
  resolves : Resolves T (mro T)
  object : ∀ m, ¬ Gives T object "do_not_inherit".toList m
  values : ∀ c m, Gives T c "do_not_inherit".toList m → ∃ l, m = .values l

/-- A history of definitions and of searches with classes that are defined. -/
def History (mro : Table → Nat → List Nat) : Table → List Event → Prop
  | T, [] => Valid mro T
  | T, .define c :: es => Valid mro T ∧ History mro (T ++ [c]) es
  | _, .assign _ _ :: _ => False
  | T, .find c :: es => Valid mro T ∧ c < T.length ∧ History mro T es

end Verif.InheritCache
