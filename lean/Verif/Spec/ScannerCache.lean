import Verif.Spec.Classes
import Verif.Model.ScannerCache

/-!
# Specification of the search for scanners
-/

namespace Verif.ScannerCache

open Verif Verif.Classes Verif.Classes.Spec

/-- The class `s` is a scanner for files with the extension `ext`. -/
def Handles (T : Table) (scanner s : Nat) (ext : Str) : Prop :=
  Derives T scanner s ∧ ∃ l, Nearest T "extensions".toList s (.values l) ∧ ext ∈ l

/-- The searches of a history are made with `Scanner` and classes that derive from it. -/
def Searches (mro : Table → Nat → List Nat) (scanner : Nat) : Table → List Event → Prop
  | _, [] => True
  | T, .define c :: es => Searches mro scanner (T ++ [c]) es
  | T, .find c _ :: es => scanner ∈ mro T c ∧ Searches mro scanner T es

end Verif.ScannerCache
