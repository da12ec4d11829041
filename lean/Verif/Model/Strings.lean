import Verif.Model.Basic

/-!
# Methods of Python strings
-/

namespace Verif

/-- `s.split(sep)` for a separator that is not empty; `skip` is the number of characters left of a
separator that has been found. -/
def splitGo (sep : Str) : Str → Nat → List Str
  | [], _ => [[]]
  | _ :: t, skip + 1 => splitGo sep t skip
  | c :: t, 0 =>
    if sep.isPrefixOf (c :: t) then [] :: splitGo sep t (sep.length - 1)
    else match splitGo sep t 0 with
      | p :: ps => (c :: p) :: ps
      | [] => [[c]]

/-- `s.split(sep)` for a separator that is not empty. (Python raises `ValueError` for an empty one.) -/
def split (sep s : Str) : List Str := splitGo sep s 0

/-- `sep.join(pieces)`. -/
def join (sep : Str) : List Str → Str
  | [] => []
  | [p] => p
  | p :: ps => p ++ sep ++ join sep ps

/-- `s.replace(old, new)` for an `old` that is not empty. -/
def replace (old new s : Str) : Str := join new (split old s)

/-- `s.lstrip()`, for the class `sp` of spaces. -/
def lstrip (sp : Char → Bool) (s : Str) : Str := s.dropWhile sp

/-- `s.rstrip()`. -/
def rstrip (sp : Char → Bool) (s : Str) : Str := (s.reverse.dropWhile sp).reverse

/-- `s.strip()`; `s.strip(chars)` is `strip (· ∈ chars) s`. -/
def strip (sp : Char → Bool) (s : Str) : Str := rstrip sp (lstrip sp s)

end Verif
