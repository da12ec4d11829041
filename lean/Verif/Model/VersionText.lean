import Verif.Model.Basic

/-!
# The text of a version (`__version__.py`)

The items of the tuple are integers or texts, in any number.
-/

namespace Verif.VersionText

open Verif

/-- An item of the tuple. -/
inductive Item where
  | num (n : Int)
  | text (s : Str)
deriving DecidableEq

/-- Exceptions: of `assert`, and of the comparison of a text with a number. -/
inductive Err where
  | assertion
  | type
deriving DecidableEq

/-- `str` of an item. -/
def str : Item → Str
  | .num n => if n < 0 then '-' :: Nat.toDigits 10 n.natAbs else Nat.toDigits 10 n.natAbs
  | .text s => s

/-- `item > 0`. -/
def positive : Item → Except Err Bool
  | .num n => .ok (decide (n > 0))
  | .text _ => .error .type

/-- The dict `mapping` (`__version__.py:36`), and `none` for what the assertion (`__version__.py:32`) does not allow. -/
def mapping : Item → Option Str
  | .text s =>
    if s = "final".toList then some []
    else if s = "alpha".toList then some "a".toList
    else if s = "beta".toList then some "b".toList
    else if s = "rc".toList then some "rc".toList
    else none
  | .num _ => none

/-- `get_version` (`__version__.py:1-40`). -/
def getVersion : List Item → Except Err Str
  | [major, minor, update, kind, number] =>
    match mapping kind with
    | none => .error .assertion
    | some letters => do
      let ver := str major ++ ['.'] ++ str minor
      let ver := if ← positive update then ver ++ ['.'] ++ str update else ver
      let ver := ver ++ letters
      if kind = .text "final".toList then .ok ver
      else if ← positive number then .ok (ver ++ str number)
      else .ok ver
  | _ => .error .assertion

end Verif.VersionText
