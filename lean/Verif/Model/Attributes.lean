import Verif.Model.Dict
import Verif.Model.Lists

/-!
# Model of tag attributes

Models `/repo/src/disseminate/attributes/attributes.py` and the positional value
types of `/repo/src/disseminate/utils/types.py`.

Parameters of the model:
* `targets`: the target names of `settings.tracked_deps` without their leading
  period (`settings.py:248-255`), in the order in which the set is iterated;
* `posType`: `positionalvalue_type` (`utils/types.py:55-94`), which asks
  Python's `int` and `float` whether a text is a number;
* `isWord`, `isSpace`: the regex classes `\w` and `\s`.

`sep` is `settings.attribute_target_sep`, a period.
-/

namespace Verif.Attrs

open Verif

/-- The classes for positional values (`utils/types.py:6-28`); `any` is the base
class `PositionalValue`. -/
inductive PType where
  | any | int | float | string
deriving Repr, DecidableEq

/-- A value in an attributes dict: text, or the class of a positional value. Values
set by other code to numbers are not modelled. -/
inductive AVal where
  | str (s : Str)
  | pos (t : PType)
deriving Repr, DecidableEq

/-- What is looked up: an attribute name, or a class of positional values. -/
inductive Query where
  | name (s : Str)
  | pos (t : PType)
deriving Repr, DecidableEq

/-- `issubclass(v, attr)` for the classes of positional values. -/
def PType.isSub (v attr : PType) : Bool := attr = .any || v = attr

abbrev ADict := Dict Str AVal

/-- `attr.endswith(term)`. -/
def endsWith (s term : Str) : Bool := term.isSuffixOf s

/-- `strip_attr` on a string (`attributes.py:53-67`), for the targets in the order of
iteration. The test `sep not in attr` is subsumed: a string without a period
ends with no `'.' + target`. -/
def stripAttr : List Str → Str → Str
  | [], s => s
  | t :: ts, s => if endsWith s ('.' :: t) then s.take (s.length - (t.length + 1)) else stripAttr ts s

/-- `is_target_specific` (`attributes.py:70-100`). -/
def isTargetSpecific (targets : List Str) (s : Str) : Bool := s ≠ stripAttr targets s

/-- `target.strip('.')` (`attributes.py:239`, `attributes.py:439`). -/
def stripDots (t : Str) : Str :=
  ((t.dropWhile (· = '.')).reverse.dropWhile (· = '.')).reverse

/-- `find_item` without its default (`attributes.py:196-273`); `none` is "return
default".

Simplification: for a class of positional values the code also looks for the key
`str(attr) + '.' + target`, a text like `<class …>.html`, which no attribute
string can spell; that lookup is left out. -/
def findItem (targets : List Str) (d : ADict) (q : Query) (target : Option Str) :
    Option (Str × AVal) :=
  let target := target.map stripDots
  match q with
  | .name attr =>
    match target.bind (fun t => (d.get? (attr ++ '.' :: t)).map (fun v => (attr ++ '.' :: t, v))) with
    | some kv => some kv
    | none => (d.get? attr).map (fun v => (attr, v))
  | .pos pt =>
    let items := d.filter fun kv => match kv.2 with
      | .pos t => t.isSub pt
      | .str _ => false
    let targetItems := match target with
      | some (c :: t) => items.filter fun kv => endsWith kv.1 (c :: t)
      | _ => items.filter fun kv => !isTargetSpecific targets kv.1
    match targetItems with
    | kv :: _ => some kv
    | [] => items.head?

/-- `get` without its default (`attributes.py:275-329`): the value (or, for a class
of positional values, the key), stripped of a target suffix if it is text. -/
def get (targets : List Str) (d : ADict) (q : Query) (target : Option Str) : Option AVal :=
  (findItem targets d q target).map fun (k, v) =>
    match q, v with
    | .pos _, _ => .str (stripAttr targets k)
    | .name _, .str s => .str (stripAttr targets s)
    | .name _, .pos t => .pos t

/-- `strip` (`attributes.py:360-387`), returning the new dict. -/
def strip (targets : List Str) (d : ADict) : ADict :=
  let stripped := (d.keys.filter (isTargetSpecific targets)).map (stripAttr targets)
  let kept := d.filter fun kv => kv.1 ∉ stripped
  kept.foldl (fun acc kv => acc.set (stripAttr targets kv.1) kv.2) []

/-- The position of a key, or the number of keys (`attributes.py:457-458`). -/
def order (d : ADict) : Query → Nat
  | .name s => d.keys.idxOf s
  | .pos _ => d.keys.length

/-- `strip_attr` on a query; only text is stripped (`attributes.py:53`). -/
def stripQuery (targets : List Str) : Query → Query
  | .name s => .name (stripAttr targets s)
  | .pos t => .pos t

/-- The entries to remove in `filter` (`attributes.py:460-484`). -/
def removeAttrs (targets : List Str) (attrs : List Query) : Option Str → List Query
  | some target => attrs.filterMap fun q => match q with
      | .pos _ => none
      | .name s =>
        if isTargetSpecific targets s then
          if endsWith s ('.' :: target) then some (stripQuery targets q) else some q
        else none
  | none => attrs.filter fun q => match q with
      | .pos _ => false
      | .name s => isTargetSpecific targets s

/-- `filter` (`attributes.py:389-498`). `attrs = none` is "all keys". -/
def filter (targets : List Str) (d : ADict) (attrs : Option (List Query)) (target : Option Str)
    (sortByAttrs : Bool := false) (doStrip : Bool := true) : ADict :=
  let target := target.map stripDots
  let attrs := attrs.getD (d.keys.map .name)
  let attrs := Lists.uniq id attrs
  let attrs := if sortByAttrs then attrs else sortedBy (order d) attrs
  let remove := removeAttrs targets attrs target
  let attrs := attrs.filter (· ∉ remove)
  let items := attrs.filterMap fun q => findItem targets d q target
  let out : ADict := Dict.update [] items
  if doStrip then strip targets out else out

/-! ### Attribute strings -/

/-- `[\w\.]` (`attributes.py:103`). -/
def keyChar (isWord : Char → Bool) (c : Char) : Bool := isWord c || c = '.'

/-- A quoted text `"[^"]*"` at the start (`attributes.py:105`, `attributes.py:108`):
the quoted text with its quotes, and the rest. -/
def quoted (q : Char) : Str → Option (Str × Str)
  | c :: cs =>
    if c = q then
      match cs.span (· ≠ q) with
      | (body, _ :: r) => some (q :: body ++ [q], r)
      | (_, []) => none
    else none
  | [] => none

/-- `[…]+` for a character class: a longest non-empty run. -/
def run1 (p : Char → Bool) (s : Str) : Option (Str × Str) :=
  match s.span p with
  | ([], _) => none
  | (w, r) => some (w, r)

/-- `"[^"]*"|'[^']*'|[…]+`, tried in order. -/
def quotedOr (p : Char → Bool) (s : Str) : Option (Str × Str) :=
  ((quoted '"' s).or (quoted '\'' s)).or (run1 p s)

/-- A match of `re_attrs` (`attributes.py:103-110`) that is not empty: a key with a
value, or a position. The parts of the pattern are disjoint character
classes, so no part can be re-matched shorter with success and a match
without backtracking is the match of the regex. -/
inductive Token where
  | keyValue (k v : Str)
  | position (p : Str)
deriving Repr, DecidableEq

/-- `(?P<key>[\w\.]+)\s*=\s*(?P<value>…)` (`attributes.py:103-107`). -/
def matchKeyValue (isWord isSpace : Char → Bool) (s : Str) : Option (Token × Str) := do
  let (k, r) ← run1 (keyChar isWord) s
  match r.dropWhile isSpace with
  | '=' :: r =>
    let (v, r) ← quotedOr (fun c => !isSpace c && c ≠ ']') (r.dropWhile isSpace)
    some (.keyValue k v, r)
  | _ => none

/-- `(?P<position>…|)` (`attributes.py:108-110`), without the empty match. -/
def matchPosition (isSpace : Char → Bool) (s : Str) : Option (Token × Str) := do
  let (p, r) ← quotedOr (fun c => !isSpace c && c ≠ ',' && c ≠ '[' && c ≠ ']') s
  some (.position p, r)

/-- `re_attrs.finditer(s)` without the empty matches, which `load` ignores
(`attributes.py:174-180`). Where only the empty match fits, the search goes on
one character later. The fuel bounds the number of steps. -/
def tokens (isWord isSpace : Char → Bool) : Nat → Str → List Token
  | 0, _ => []
  | _, [] => []
  | fuel + 1, c :: cs =>
    match (matchKeyValue isWord isSpace (c :: cs)).or (matchPosition isSpace (c :: cs)) with
    | some (t, r) => t :: tokens isWord isSpace fuel r
    | none => tokens isWord isSpace fuel cs

/-- `s.strip(c)` for a single character. -/
def stripChar (q : Char) (s : Str) : Str :=
  ((s.dropWhile (· = q)).reverse.dropWhile (· = q)).reverse

/-- The entry a token gives (`attributes.py:176-192`). The regex guarantees that the
key and the value of a match are not empty. -/
def entry (targets : List Str) (posType : Str → PType) : Token → Str × AVal
  | .keyValue k v => (k, .str (stripChar '\'' (stripChar '"' v)))
  | .position p =>
    let v := stripChar '"' (stripChar '\'' p)
    (v, .pos (posType (stripAttr targets v)))

/-- `load` into an empty dict, i.e. `Attributes(s)` (`attributes.py:123-131`,
`attributes.py:151-194`). -/
def load (targets : List Str) (posType : Str → PType) (isWord isSpace : Char → Bool)
    (s : Str) : ADict :=
  Dict.update [] ((tokens isWord isSpace (s.length + 1) s).map (entry targets posType))

/-- `html` (`attributes.py:500-519`). -/
def html (d : ADict) : Str :=
  List.intercalate [' '] (d.map fun kv => match kv.2 with
    | .str v => kv.1 ++ '=' :: '\'' :: v ++ ['\'']
    | .pos _ => kv.1)

/-- `totuple` (`attributes.py:139-149`): `none` in place of the value of a positional
entry. -/
def toTuple (d : ADict) : List (Str × Option Str) :=
  d.map fun kv => match kv.2 with
    | .str v => (kv.1, some v)
    | .pos _ => (kv.1, none)

/-- `tex_arguments` (`attributes.py:521-545`). -/
def texArguments (d : ADict) : Str :=
  (d.map fun kv => match kv.2 with
    | .str v => '{' :: v ++ ['}']
    | .pos _ => '{' :: kv.1 ++ ['}']).flatten

/-- `tex_optionals` (`attributes.py:547-573`). -/
def texOptionals (d : ADict) : Str :=
  if d = [] then []
  else '[' :: List.intercalate ", ".toList (d.map fun kv => match kv.2 with
    | .str v => kv.1 ++ '=' :: v
    | .pos _ => kv.1) ++ [']']

end Verif.Attrs
