import Verif.Model.BuilderActive

/-!
# Specification of the test for active builders
-/

namespace Verif.BuilderActive

open Verif

/-- All that the class requires is there. -/
def Meets (found : Str → Bool) (c : Cls) : Prop :=
  ("priority".toList ∈ c.requirements → c.priority = true) ∧
  ("required_execs".toList ∈ c.requirements → ∃ l, c.execs = .tuple l) ∧
  ("all_execs".toList ∈ c.requirements → ∀ l, (c.execs = .tuple l ∨ c.execs = .other l) → ∀ e ∈ l, found e = true)

/-- The classes that are asked have different names. -/
def DifferentNames (es : List Event) : Prop := ∀ c c', Event.ask c ∈ es → Event.ask c' ∈ es → c.name = c'.name → c = c'

/-- No programs are installed or removed. -/
def NoChange (es : List Event) : Prop := ∀ f, Event.install f ∉ es

end Verif.BuilderActive
