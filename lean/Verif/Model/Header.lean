import Verif.Model.Basic

/-!
# Model of header blocks

Models `re_header_block` and `load_from_string` of
`/repo/src/disseminate/context/utils.py` and the returned string of `BaseContext.load`
of `/repo/src/disseminate/context/context.py`.

`sp` is the class `\s` of the regular expression, which holds for the newline
and not for a dash.
-/

namespace Verif.Header

open Verif

variable (sp : Char → Bool)

/-- The part `(\n\s*\g<1>)\n?` of the expression (`context/utils.py:9`) at the start of a text: what
follows it. `ds` are the dashes of the first group; the `regex` package reads `\g<1>` as a
reference to the text of that group. The `\s*` can only end at the first character that is not a space,
because a dash is none. -/
def closeAt (ds : Str) : Str → Option Str
  | '\n' :: t =>
    let u := t.dropWhile sp
    if ds.isPrefixOf u then
      match u.drop ds.length with
      | '\n' :: rest => some rest
      | rest => some rest
    else none
  | _ => none

/-- The shortest (possibly empty) text up to a closing marker, and what follows the marker. -/
def findClose (ds : Str) : Str → Option (Str × Str)
  | [] => none
  | c :: t => match closeAt sp ds (c :: t) with
    | some rest => some ([], rest)
    | none => (findClose ds t).map fun (h, rest) => (c :: h, rest)

/-- The part `(?P<header>.+?)(\n\s*\g<1>)\n?` (`context/utils.py:8-9`): the header has at
least one character (of any kind: `DOTALL`), and as few as possible. -/
def body (ds : Str) : Str → Option (Str × Str)
  | [] => none
  | c :: t => (findClose sp ds t).map fun (h, rest) => (c :: h, rest)

/-- The ways to match `\s*\n` (`context/utils.py:7`), longest first: the text that follows. -/
def starts : Str → List Str
  | [] => []
  | c :: t => if sp c then starts t ++ (if c = '\n' then [t] else []) else []

/-- `re_header_block.match(string)` (`context/utils.py:7-9`): the header group and the text after the match.
The dashes of group 1 cannot be fewer than all the dashes, since `\s*\n` follows. -/
def matchHeader (s : Str) : Option (Str × Str) :=
  let t := s.dropWhile sp
  let ds := t.takeWhile (· = '-')
  if ds.length < 3 then none
  else (starts sp (t.dropWhile (· = '-'))).findSome? (body sp ds)

/-- `load_from_string` (`context/utils.py:32-62`) without the parsing of the header: `rest` and the text
that is parsed for entries. -/
def loadFromString (s : Str) : Option Str × Str :=
  match matchHeader sp s with
  | some (header, rest) => (some rest, header)
  | none => (none, s)

/-- The string returned by `BaseContext.load` (`context/context.py:179-219`). -/
def load (s : Str) (stripHeader : Bool) : Str :=
  match (loadFromString sp s).1 with
  | some rest => if stripHeader then rest else s
  | none => s

/-- Whether `find_header_entries` (`context/utils.py:12-29`) selects a text entry. -/
def hasHeader (s : Str) : Bool := (matchHeader sp s).isSome

end Verif.Header
