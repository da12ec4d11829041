import Verif.Model.Strings
import Verif.Model.Dict

/-!
# Model of the string and dict utilities

Models parts of `/repo/src/disseminate/utils/string.py` and
`/repo/src/disseminate/utils/dict.py`. `sp` stands for the whitespace of `str.strip()` and of the class
`\s`; `brk` for the line breaks of `str.splitlines()`.
-/

namespace Verif.Utils

open Verif

/-- `nicejoin` (`utils/string.py:55-91`). -/
def nicejoin (sep term : Str) : List Str → Str
  | [] => []
  | [x] => x
  | x :: xs => join sep (x :: xs).dropLast ++ term ++ ((x :: xs).getLast?.getD [])

/-- The loop of `find_basestring` (`utils/string.py:269-275`), on a base of at most `n` characters. -/
def chopLoop (strings : List Str) : Nat → Str → Str
  | 0, base => base
  | n + 1, base => if strings.all (fun s => base.isPrefixOf s) then base else chopLoop strings n base.dropLast

/-- `find_basestring` (`utils/string.py:246-276`); `none` for the `IndexError` of an empty list. -/
def findBasestring : List Str → Option Str
  | [] => none
  | s :: ss => some (chopLoop (s :: ss) s.length s)

/-- `str_to_list` (`utils/string.py:279-323`). -/
def strToList (sp : Char → Bool) (s : Str) : List Str :=
  let semi := split [';'] s
  if semi.length > 1 then semi.map (strip sp)
  else
    let lines := ((split ['\n'] s).map (strip sp)).filter (· ≠ [])
    if lines.length > 1 then lines
    else
      let comma := split [','] s
      if comma.length > 1 then comma.map (strip sp) else [s]

/-- `s.splitlines()`; `cr` tells that a `\r` was just read. -/
def splitlinesGo (brk : Char → Bool) : Bool → Str → List Str
  | _, [] => []
  | cr, c :: t =>
    if cr && c = '\n' then splitlinesGo brk false t
    else if brk c then [] :: splitlinesGo brk (c = '\r') t
    else match splitlinesGo brk false t with
      | l :: ls => (c :: l) :: ls
      | [] => [[c]]

def splitlines (brk : Char → Bool) (s : Str) : List Str := splitlinesGo brk false s

/-- A match of `_re_entry` (`utils/string.py:326-330`) on a line. -/
structure Entry where
  level : Nat
  key : Str
  value : Str
deriving Repr, DecidableEq

/-- `(?P<key>.+?)(?<!\\)\:` on a text: the shortest non-empty key up to a colon that has no backslash in front of
it, and the text behind the colon. `prev` is the character in front of the text, if that is
part of the key. -/
def findColon : Option Char → Str → Option (Str × Str)
  | _, [] => none
  | none, c :: t => (findColon (some c) t).map fun (k, r) => (c :: k, r)
  | some p, c :: t =>
    if c = ':' ∧ p ≠ '\\' then some ([], t)
    else (findColon (some c) t).map fun (k, r) => (c :: k, r)

/-- `_re_entry.match(line)` (`utils/string.py:326-330`): as many leading spaces as possible, then the key. With
fewer spaces (`n` of them) the expression is tried again, as the regex engine does. -/
def matchEntryAt (sp : Char → Bool) (line : Str) : Nat → Option Entry
  | 0 => (findColon none line).map fun (k, r) => ⟨0, k, r.dropWhile sp⟩
  | n + 1 => match findColon none (line.drop (n + 1)) with
    | some (k, r) => some ⟨n + 1, k, r.dropWhile sp⟩
    | none => matchEntryAt sp line n

def matchEntry (sp : Char → Bool) (line : Str) : Option Entry :=
  matchEntryAt sp line (line.takeWhile sp).length

/-- `line.replace("\\:", ":")` (`utils/string.py:383`). -/
def unescape (line : Str) : Str := replace ['\\', ':'] [':'] line

/-- The state of the loop of `str_to_dict`: `d`, the key of `current_entry_list` if that is a list in `d`, and
`current_spaces`. -/
structure DictState where
  d : Dict Str (List Str)
  cur : Option (Str × Nat)
deriving Repr, DecidableEq

/-- `current_entry_list.append(line)`. Before the first entry the list is thrown away. -/
def appendTo (d : Dict Str (List Str)) (k : Str) (line : Str) : Dict Str (List Str) :=
  d.set k ((d.get? k).getD [] ++ [line])

/-- One line (`utils/string.py:375-405`). -/
def dictStep (sp : Char → Bool) (st : DictState) (line : Str) : DictState :=
  match matchEntry sp line, st.cur with
  | some e, some (k, n) =>
    if e.level > n then { st with d := appendTo st.d k (unescape (line.drop n)) }
    else ⟨appendTo st.d (strip sp e.key) e.value, some (strip sp e.key, e.level)⟩
  | some e, none => ⟨appendTo st.d (strip sp e.key) e.value, some (strip sp e.key, e.level)⟩
  | none, some (k, n) => { st with d := appendTo st.d k (unescape (line.drop n)) }
  | none, none => st

/-- The lines of each entry (`utils/string.py:363-405`). -/
def dictLines (sp : Char → Bool) (lines : List Str) : Dict Str (List Str) :=
  (lines.foldl (dictStep sp) ⟨[], none⟩).d

/-- `strip_end_quotes` on a text without newline (`utils/string.py:200-208`). -/
def stripEndQuotesLine (sp : Char → Bool) (s : Str) : Str :=
  let try1 (q : Char) : Option Str :=
    if s.count q % 2 = 0 then
      let ps := split [q] s
      if strip sp (ps.head?.getD []) = [] ∧ strip sp (ps.getLast?.getD []) = [] then
        some ((ps.head?.getD []) ++ join [q] (ps.drop 1).dropLast ++ (ps.getLast?.getD []))
      else none
    else none
  ((try1 '\'').or (try1 '"')).getD s

/-- `strip_end_quotes` (`utils/string.py:175-208`). -/
def stripEndQuotes (sp brk : Char → Bool) (s : Str) : Str :=
  if '\n' ∈ s then join ['\n'] ((splitlines brk s).map (stripEndQuotesLine sp))
  else stripEndQuotesLine sp s

/-- `str_to_dict` (`utils/string.py:333-414`). -/
def strToDict (sp brk : Char → Bool) (s : Str) (stripQuotes : Bool) : Dict Str Str :=
  (dictLines sp (splitlines brk s)).map fun (k, ls) =>
    let v := strip (· = '\n') (join ['\n'] ls)
    (k, if stripQuotes then stripEndQuotes sp brk v else v)

/-- The trials for one dict in `find_entry` (`utils/dict.py:60-71`), for the first `n` keys and fewer. -/
def findIn {α : Type} (sep : Str) (suffix : Option Str) (keys : List Str) (d : Dict Str α) : Nat → Option α
  | 0 => none
  | n + 1 =>
    let trial := join sep (keys.take (n + 1))
    let trialSuffix := match suffix with
      | some s => join sep [trial, s]
      | none => trial
    match d.get? trialSuffix with
    | some v => some v
    | none => match d.get? trial with
      | some v => some v
      | none => findIn sep suffix keys d n

/-- `find_entry` (`utils/dict.py:6-74`); `none` for `KeyError`. -/
def findEntry {α : Type} (sep : Str) (suffix : Option Str) (keys : List Str) : List (Dict Str α) → Option α
  | [] => none
  | d :: ds => match findIn sep suffix keys d keys.length with
    | some v => some v
    | none => findEntry sep suffix keys ds

end Verif.Utils
