import Verif.Model.TagCache

/-!
# Specification of the search for tag classes while classes are defined
-/

namespace Verif.TagCache

open Verif Verif.Tags

/-- The classes at the time of the first search of a history, or at its end. -/
def atFirst (cs : List TagClass) : List Event → List TagClass
  | [] => cs
  | .define i c :: es => atFirst (cs.take i ++ c :: cs.drop i) es
  | .search _ _ :: _ => cs

/-- Some name or alias is there twice. -/
def Repeats (cs : List TagClass) : Prop := ¬ (cs.flatMap fun c => c.name :: c.aliases).Nodup

end Verif.TagCache
