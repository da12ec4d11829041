import Verif.Model.Strings
import Verif.Model.Dict

/-!
# Model of `replace_macros` (`utils/string.py:463-541`)

`isWord` stands for the class `\w`, `sp` for `\s`. Python objects are a type `O` with `None`, attributes and `str`.
-/

namespace Verif.Macros

open Verif

/-- The Python objects that macros stand for. -/
structure Objs where
  O : Type
  /-- `None`. -/
  nothing : O
  /-- `obj is None`. -/
  isNone : O → Bool
  /-- `getattr(obj, name)`, if `hasattr(obj, name)`. -/
  attr : O → Str → Option O
  /-- `str(obj)`. -/
  str : O → Str

/-- `[\w\.]`. -/
def nameChar (isWord : Char → Bool) (c : Char) : Bool := isWord c || c = '.'

/-- The text that `({\s*})?` takes (`utils/string.py:466`). -/
def braces (sp : Char → Bool) : Str → Str
  | '{' :: t =>
    match t.dropWhile sp with
    | '}' :: _ => '{' :: t.takeWhile sp ++ ['}']
    | _ => []
  | _ => []

/-- A match of `_re_macro` at the start of a text (`utils/string.py:463-467`): the macro and the empty braces. -/
def macroAt (isWord sp : Char → Bool) : Str → Option (Str × Str)
  | '@' :: t =>
    let name := t.takeWhile (nameChar isWord)
    if name = [] then none else some ('@' :: name, braces sp (t.dropWhile (nameChar isWord)))
  | _ => none

variable (J : Objs)

/-- `for d in dicts: if piece in d: obj = d[piece]; break` (`utils/string.py:513-517`). -/
def lookup (dicts : List (Dict Str J.O)) (piece : Str) : Option J.O := dicts.findSome? fun d => d.get? piece

/-- The loop over the pieces (`utils/string.py:508-523`): the object and the pieces that are left. -/
def follow (dicts : List (Dict Str J.O)) : J.O → List Str → J.O × List Str
  | obj, [] => (obj, [])
  | obj, piece :: pieces =>
    match (if J.isNone obj then lookup J dicts piece else none) with
    | some o => follow dicts o pieces
    | none =>
      match J.attr obj piece with
      | some o => follow dicts o pieces
      | none => (obj, piece :: pieces)

/-- `_substitute` (`utils/string.py:498-531`); `group` is the whole match. -/
def substitute (dicts : List (Dict Str J.O)) (mac group : Str) : Str :=
  let (obj, pieces) := follow J dicts J.nothing (split ['.'] mac)
  if J.isNone obj then group else J.str obj ++ pieces.flatMap ('.' :: ·)

/-- `_re_macro.subn(_substitute, s)`; `skip` counts the characters of a match that are left. -/
def subn (isWord sp : Char → Bool) (dicts : List (Dict Str J.O)) : Str → Nat → Str × Nat
  | [], _ => ([], 0)
  | _ :: t, skip + 1 => subn isWord sp dicts t skip
  | c :: t, 0 =>
    match macroAt isWord sp (c :: t) with
    | some (mac, br) =>
      let (r, n) := subn isWord sp dicts t ((mac ++ br).length - 1)
      (substitute J dicts mac (mac ++ br) ++ r, n + 1)
    | none =>
      let (r, n) := subn isWord sp dicts t 0
      (c :: r, n)

/-- The `while` loop (`utils/string.py:535-539`); `none` if it has not ended after `fuel` rounds. -/
def repeatSub (isWord sp : Char → Bool) (dicts : List (Dict Str J.O)) : Nat → Str → Nat → Nat → Option Str
  | 0, _, _, _ => none
  | fuel + 1, s, num, last =>
    if num > 0 ∧ num > last then
      let (s', num') := subn J isWord sp dicts s 0
      repeatSub isWord sp dicts fuel s' num' num
    else some s

/-- `replace_macros` (`utils/string.py:470-541`). -/
def replaceMacros (isWord sp : Char → Bool) (dicts : List (Dict Str J.O)) (fuel : Nat) (s : Str) : Option Str :=
  let (s', num) := subn J isWord sp dicts s 0
  repeatSub J isWord sp dicts fuel s' num 0

end Verif.Macros
