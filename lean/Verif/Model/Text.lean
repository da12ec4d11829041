import Verif.Model.Utils

/-!
# Model of the functions for texts

Models `space_indent`, `stub`, `strip_multi_newlines` and `convert_camelcase` of `/repo/src/disseminate/utils/string.py`;
`nicejoin`, `splitlines` and `strip_end_quotes` are in `Model/Utils.lean`. The classes of spaces (`sp`) and line
breaks (`brk`) and the lower case of a text are given from outside.
-/

namespace Verif.Utils

open Verif

/-- `space_indent` (`utils/string.py:94-119`). -/
def spaceIndent (brk : Char → Bool) (number : Nat) (s : Str) : Str :=
  join ['\n'] ((splitlines brk s).map fun t => List.replicate number ' ' ++ t)

/-- `_re_newline_space.sub(' ', s)` with `\s*\n\s*` (`utils/string.py:122`): spaces with a newline among them are replaced from the
first of them to the last; `done` tells that this has happened for the spaces being read. -/
def joinLines (sp : Char → Bool) : Bool → Str → Str
  | _, [] => []
  | true, c :: t => if sp c then joinLines sp true t else c :: joinLines sp false t
  | false, c :: t =>
    if sp c && decide ('\n' ∈ (c :: t).takeWhile sp) then ' ' :: joinLines sp true t else c :: joinLines sp false t

/-- `stub` (`utils/string.py:125-145`). -/
def stub (sp : Char → Bool) (s : Str) : Str := joinLines sp false ((split ['\n', '\n'] s).headD [])

/-- `strip_multi_newlines` (`utils/string.py:148-172`); `after` tells that the character before is a newline that has been kept. -/
def stripMultiNewlines : Bool → Str → Str
  | _, [] => []
  | after, c :: t =>
    if c = '\n' then
      if after then stripMultiNewlines true t else '\n' :: stripMultiNewlines true t
    else c :: stripMultiNewlines false t

/-- `_re_find_capitals.findall(string)` with `[A-Z][^A-Z]*` (`utils/string.py:211`). -/
def capitalPieces : Str → List Str
  | [] => []
  | c :: t => if 'A' ≤ c ∧ c ≤ 'Z' then (c :: t.takeWhile fun x => ¬ ('A' ≤ x ∧ x ≤ 'Z')) :: capitalPieces t else capitalPieces t

/-- `convert_camelcase` (`utils/string.py:214-243`). -/
def convertCamelcase (lower : Str → Str) (sep s : Str) : Str :=
  let pieces := capitalPieces s
  if pieces ≠ [] then join sep (pieces.map lower) else s

end Verif.Utils
