import Verif.Model.ContextArgs

/-!
# Specification of the arguments of contexts
-/

namespace Verif.ContextArgs

open Verif

/-- The names that are not entries. -/
def Reserved (k : Str) : Prop :=
  k = "parent_context".toList ∨ k = "_parent_context".toList ∨ k = "_initial_values".toList

/-- The value of a name that is given last. -/
def lastOf {α : Type} (items : List (Str × α)) (k : Str) : Option α := (items.reverse.find? fun x => x.1 = k).map Prod.snd

end Verif.ContextArgs
