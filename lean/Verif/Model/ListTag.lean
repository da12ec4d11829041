import Verif.Model.Strings

/-!
# Lists

Model of `src/disseminate/tags/list.py` and of `xhtml_list` in `src/disseminate/formats/xhtml.py`.

Not modelled: the processing of the contents of each list item (`ListItem` is a tag), the lxml elements and their
attributes (a list element is a node with its elements). Counts of spaces are taken to be small enough for
the division of floats in `normalize_levels` to be exact.
-/

namespace Verif.ListTag

open Verif

variable (sp : Char → Bool)

/-- The characters of `[\*\-]`. -/
def isBullet (c : Char) : Bool := c = '*' || c = '-'

/-- The regex `\s*[\*\-]` at the start of a string (`tags/list.py:15`): the number of spaces before the bullet.
A bullet is not a space, so that the greedy `\s*` has nothing to give back. -/
def bulletAt (s : Str) : Option Nat :=
  match s.dropWhile sp with
  | c :: _ => if isBullet c then some (s.takeWhile sp).length else none
  | [] => none

/-- `re_list.finditer(s)` with `^` for a line start (`tags/list.py:15`, `:44-77`): the text before the first match, and for
each match its spaces and the text up to the next. `bol` says whether this is the start of a line, `skip`
counts the characters left of the current match. -/
def cutGo : Str → Bool → Nat → Str × List (Str × Str)
  | [], _, _ => ([], [])
  | _ :: s, _, skip + 1 => cutGo s false skip
  | c :: s, bol, 0 =>
    match if bol then bulletAt sp (c :: s) else none with
    | some n =>
      let r := cutGo s false n
      ([], ((c :: s).take n, r.1) :: r.2)
    | none =>
      let r := cutGo s (c = '\n') 0
      (c :: r.1, r.2)

/-- `parse_string_list` (`tags/list.py:21-77`). -/
def parseStringList (s : Str) : List (Nat × Str) :=
  (cutGo sp s true 0).2.map fun m => (m.1.count ' ', strip sp m.2)

/-- The regex `\s*\n+\s+` at the start of a string (`tags/list.py:18`): the length of the match. Whatever `\s*` and `\n+`
give back, `\s+` takes all the spaces that are left, and what is needed is a newline with a space after it. -/
def multiAt (s : Str) : Option Nat :=
  let w := s.takeWhile sp
  if '\n' ∈ w.dropLast then some w.length else none

/-- `re_multiline_items.sub(" ", s)` (`tags/list.py:101`), with the number of characters left of the current match. -/
def cleanGo : Str → Nat → Str
  | [], _ => []
  | _ :: s, skip + 1 => cleanGo s skip
  | c :: s, 0 =>
    match multiAt sp (c :: s) with
    | some n => ' ' :: cleanGo s (n - 1)
    | none => c :: cleanGo s 0

/-- `clean_string_list` (`tags/list.py:80-104`). -/
def cleanStringList (l : List (Nat × Str)) : List (Nat × Str) :=
  l.map fun (level, s) => (level, cleanGo sp s 0)

/-- `min(level for level, item in parsed_list) if parsed_list else 0` (`tags/list.py:129`). -/
def minLevel {α : Type} : List (Nat × α) → Nat
  | [] => 0
  | e :: es => es.foldl (fun m e => min m e.1) e.1

/-- `normalize_levels` (`tags/list.py:107-131`), with `ceil` of the quotient. -/
def normalizeLevels {α : Type} (k : Nat) (l : List (Nat × α)) : List (Nat × α) :=
  l.map fun (level, item) => ((level - minLevel l + (k - 1)) / k, item)

/-- The list items of a list tag (`tags/list.py:222-236`); `list_level_spaces` is 2 (`settings.py`). -/
def listItems (s : Str) : List (Nat × Str) :=
  normalizeLevels 2 (cleanStringList sp (parseStringList sp s))

/-- `ListItem.tex_fmt` (`tags/list.py:208-211`) for the formatted contents. -/
def texItem (e : Nat × Str) : Str := List.replicate (e.1 + 1) '§' ++ ' ' :: e.2 ++ ['\n']

/-- The elements of a rendered list: list items and inner lists. -/
inductive Node (α : Type)
  | li (x : α)
  | sub (l : List (Node α))

/-- The counter of `xhtml_list` on each element (`xhtml.py:273-280`). -/
def counted {α : Type} (lvl : Nat) : Nat → List (Nat × α) → List (Nat × (Nat × α))
  | _, [] => []
  | n, e :: es =>
    let n' := if e.1 = lvl then n + 1 else n
    (n', e) :: counted lvl n' es

/-- `itertools.groupby` of elements with their keys. -/
def groupAdj {β : Type} : List (Nat × β) → List (Nat × List β)
  | [] => []
  | (k, x) :: xs =>
    match groupAdj xs with
    | [] => [(k, [x])]
    | (k', g) :: gs => if k = k' then (k, x :: g) :: gs else (k, [x]) :: (k', g) :: gs

/-- The elements for one group (`xhtml.py:282-294`): the list item, and the list of the others if there are any. -/
def groupNodes {α : Type} (inner : List (Nat × α) → List (Node α)) : List (Nat × α) → List (Node α)
  | [] => []
  | e :: rest => .li e.2 :: (if rest.isEmpty then [] else [.sub (inner rest)])

/-- `xhtml_list` (`xhtml.py:227-308`): the elements of the list. The recursion is on shorter lists, `fuel` is a bound
for their length. -/
def xhtmlList {α : Type} : Nat → List (Nat × α) → List (Node α)
  | 0, _ => []
  | fuel + 1, elements =>
    let lvl := match elements with
      | e :: _ => e.1
      | [] => 0
    (groupAdj (counted lvl 0 elements)).flatMap fun g => groupNodes (xhtmlList fuel) g.2

/-- `xhtml_list` of all elements. -/
def renderList {α : Type} (elements : List (Nat × α)) : List (Node α) := xhtmlList (elements.length + 1) elements

end Verif.ListTag
