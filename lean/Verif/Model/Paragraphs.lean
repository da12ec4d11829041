import Verif.Model.Strings

/-!
# Model of `tags/receivers/paragraphs.py`

`sp` stands for the class `\s` (and the whitespace of `str.strip()`), to which the newline belongs.
-/

namespace Verif.Para

open Verif

/-- The contents of tags: strings, objects (tags and others) with the value of their `include_paragraphs`
attribute, lists, and the paragraph tags that are made here. -/
inductive Item
  | str (s : Str)
  | obj (id : Nat) (incl isTag : Bool)
  | list (l : List Item)
  | p (content : Item)

/-- The length of a match of `re_para` (`paragraphs.py:21`) at the start of a text. `\s` includes the newline, so
`\s*\n\s*\n\s*\n*` takes the whole run of whitespace, and matches if that has two newlines. -/
def paraAt (sp : Char → Bool) (s : Str) : Option Nat :=
  if (s.takeWhile sp).count '\n' ≥ 2 then some (s.takeWhile sp).length else none

/-- `re_para.split(s)`; `skip` counts the characters of a match that are left. -/
def paraSplitGo (sp : Char → Bool) : Str → Nat → List Str
  | [], _ => [[]]
  | _ :: t, skip + 1 => paraSplitGo sp t skip
  | c :: t, 0 =>
    match paraAt sp (c :: t) with
    | some n => [] :: paraSplitGo sp t (n - 1)
    | none =>
      match paraSplitGo sp t 0 with
      | p :: ps => (c :: p) :: ps
      | [] => [[c]]

def paraSplit (sp : Char → Bool) (s : Str) : List Str := paraSplitGo sp s 0

/-- `if sublist: overall_list.append(sublist)`. -/
def close (o : List Item) (sub : List Item) : List Item := if sub.isEmpty then o else o ++ [.list sub]

/-- `if piece: sublist.append(piece)`. -/
def addPiece (sub : List Item) (p : Str) : List Item := if p.isEmpty then sub else sub ++ [.str p]

/-- The loop over the pieces of a string (`paragraphs.py:81-98`): `overall_list` and `sublist`. The case of a
single piece (`paragraphs.py:81-85`) does what the loop does. -/
def addPieces : List Item → List Item → List Str → List Item × List Item
  | o, sub, [] => (o, sub)
  | o, sub, [p] => (o, addPiece sub p)
  | o, sub, p :: ps => addPieces (close o (addPiece sub p)) [] ps

/-- One item (`paragraphs.py:59-98`). -/
def groupStep (sp : Char → Bool) (st : List Item × List Item) : Item → List Item × List Item
  | .str s => addPieces st.1 st.2 (paraSplit sp s)
  | .obj i true t => (st.1, st.2 ++ [.obj i true t])
  | .obj i false t => (close st.1 st.2 ++ [.obj i false t], [])
  | .list l => (close st.1 st.2 ++ [.list l], [])
  | .p c => (close st.1 st.2 ++ [.p c], [])  -- `P.include_paragraphs` is False (`tags/text.py:59`)

/-- `group_paragraphs` (`paragraphs.py:24-106`) of a list. -/
def group (sp : Char → Bool) (elements : List Item) : List Item :=
  let (o, sub) := elements.foldl (groupStep sp) ([], [])
  close o sub

/-- `isinstance(i, str) and not i.strip()`. -/
def blankStr (sp : Char → Bool) : Item → Bool
  | .str s => (strip sp s).isEmpty
  | _ => false

/-- `clean_paragraphs` (`paragraphs.py:109-157`). -/
def clean (sp : Char → Bool) (elements : List Item) : List Item :=
  elements.filter fun
    | .list l => !l.all (blankStr sp)
    | _ => true

/-- Roles of tags in paragraphs. -/
inductive Role
  | block
  | inline
deriving Repr, DecidableEq

/-- `isinstance(x, tag_base_cls)`, with the name of the tag; paragraph tags are not named. -/
def tagId : Item → Option Nat
  | .obj i _ true => some i
  | _ => none

/-- `isinstance(s, str) and s.strip() != ""`. -/
def textStr (sp : Char → Bool) : Item → Bool
  | .str s => !(strip sp s).isEmpty
  | _ => false

/-- Whether an item is a tag, also one that is a paragraph. -/
def isTag : Item → Bool
  | .obj _ _ t => t
  | .p _ => true
  | _ => false

/-- The roles set for one sublist (`paragraphs.py:186-208`), by the names of the tags. -/
def rolesOf (sp : Char → Bool) (sub : List Item) : List (Nat × Role) :=
  let tags := sub.filter isTag
  let strings := sub.filter (textStr sp)
  if tags.length = 1 ∧ strings.length = 0 then (tags.filterMap tagId).map (·, .block)
  else if sub.length > 1 then (tags.filterMap tagId).map (·, .inline)
  else []

/-- `assign_paragraph_roles` (`paragraphs.py:160-210`): the values assigned, in order. -/
def roles (sp : Char → Bool) (elements : List Item) : List (Nat × Role) :=
  elements.flatMap fun
    | .list l => rolesOf sp l
    | _ => []

/-- `item[0] if len(item) == 1 else item` (`paragraphs.py:259`). -/
def unwrap1 : List Item → Item
  | [x] => x
  | l => .list l

/-- The conversion of sublists to paragraphs (`paragraphs.py:253-264`). -/
def toP : Item → Item
  | .list l => .p (unwrap1 l)
  | i => i

/-- `process_paragraph_tags` (`paragraphs.py:213-275`) on the contents of a tag: the new contents and the roles
set. Other contents than strings and lists are left alone. -/
def process (sp : Char → Bool) (content : Item) : Item × List (Nat × Role) :=
  let run (elements : List Item) :=
    let g := clean sp (group sp elements)
    (unwrap1 (g.map toP), roles sp g)
  match content with
  | .str s => run [.str s]
  | .list l => run l
  | c => (c, [])

end Verif.Para
