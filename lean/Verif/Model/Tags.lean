import Verif.Model.Strings
import Verif.Model.Dict

/-!
# Model of tag objects

Models `copy_tag`, `replace_context`, `format_content` and `content_to_str` of
`/repo/src/disseminate/tags/utils.py`, `Tag.flatten`, `Tag.copy` and `Tag.default_fmt` of
`/repo/src/disseminate/tags/tag.py`, `TagFactory`, and the weak attribute `context` of
`/repo/src/disseminate/utils/classes.py`.

Tags are mutable objects that may be shared, so they are modelled with a heap: a list of cells, an address being
an index. Simplification: the attributes other than `name`, `attributes`, `content` and `context` are left out
(`copy_tag` shares them).
-/

namespace Verif.Tags

open Verif

/-- The address of an object. -/
abbrev Addr := Nat

/-- A Python value in the content of a tag: a string, a list, a tag or something else (like `None`). -/
inductive Val
  | str (s : Str)
  | list (a : Addr)
  | tag (a : Addr)
  | other
deriving Repr, DecidableEq

/-- A tag (`tags/tag.py:75-103`): `attrs` is the address of its attributes, `weak` that of the dict
`__weakrefattrs__` with the reference to the context. -/
structure TagObj where
  cls : Str
  name : Str
  attrs : Addr
  weak : Addr
  content : Val
deriving Repr, DecidableEq

/-- The objects in memory. The weak attributes of a tag hold the context only, given by a number. -/
inductive Cell
  | tag (t : TagObj)
  | list (l : List Val)
  | attrs (d : Dict Str Str)
  | weak (ctx : Option Nat)
deriving Repr, DecidableEq

abbrev Heap := List Cell

/-- The exceptions. -/
inductive TagError
  | attribute | type | recursion | dangling
deriving Repr, DecidableEq

/-- The loop `[copy_tag(i) for i in tag]` (`tags/utils.py:127`). -/
def copyItems (rec : Heap → Val → Except TagError (Heap × Val)) : Heap → List Val → Except TagError (Heap × List Val)
  | h, [] => .ok (h, [])
  | h, v :: l =>
    match rec h v with
    | .error e => .error e
    | .ok (h1, w) =>
      match copyItems rec h1 l with
      | .error e => .error e
      | .ok (h2, ws) => .ok (h2, w :: ws)

/-- `copy_tag` (`tags/utils.py:108-146`), to a depth of `n` calls. The new tag is entered in the heap when its
content has been copied. -/
def copyTag : Nat → Heap → Val → Except TagError (Heap × Val)
  | 0, _, _ => .error .recursion
  | n + 1, h, v =>
    match v with
    | .str s => .ok (h, .str s)
    | .other => .error .attribute
    | .list a =>
      match h[a]? with
      | some (.list l) =>
        match copyItems (copyTag n) h l with
        | .error e => .error e
        | .ok (h', ws) => .ok (h' ++ [.list ws], .list h'.length)
      | _ => .error .dangling
    | .tag a =>
      match h[a]? with
      | some (.tag t) =>
        match h[t.attrs]?, h[t.weak]? with
        | some (.attrs d), some (.weak c) =>
          match copyTag n (h ++ [.attrs d, .weak c]) t.content with
          | .error e => .error e
          | .ok (h', w) =>
            .ok (h' ++ [.tag { t with attrs := h.length, weak := h.length + 1, content := w }], .tag h'.length)
        | _, _ => .error .dangling
      | _ => .error .dangling

/-- The items iterated over by `Tag.flatten` (`tags/tag.py:182-193`): those of the content of a tag, or of a
list. The characters of a string are strings. -/
def flattenItems (h : Heap) (v : Val) : List Val :=
  let inner := match v with
    | .tag a => (match h[a]? with | some (.tag t) => t.content | _ => .other)
    | v => v
  match inner with
  | .list a => (match h[a]? with | some (.list l) => l | _ => [])
  | .str s => s.map fun c => .str [c]
  | .tag a => [.tag a]
  | .other => [.other]

/-- The content that `Tag.flatten` descends into (`tags/tag.py:198-202`): of a tag whose content is a list or a
tag. -/
def descends (h : Heap) (v : Val) : Option Val :=
  match v with
  | .tag a =>
    match h[a]? with
    | some (.tag t) =>
      match t.content with
      | .list b => some (.list b)
      | .tag b => some (.tag b)
      | _ => none
    | _ => none
  | _ => none

/-- The loop of `Tag.flatten` (`tags/tag.py:193-202`). -/
def flattenLoop (rec : Val → List Val) (h : Heap) : List Val → List Val
  | [] => []
  | v :: l =>
    v :: (match descends h v with
      | some w => rec w
      | none => []) ++ flattenLoop rec h l

/-- `Tag.flatten(filter_tags=False)` (`tags/tag.py:165-206`), to a depth of `n` calls. -/
def flattenAll : Nat → Heap → Val → List Val
  | 0, _, _ => []
  | n + 1, h, v => v :: flattenLoop (flattenAll n h) h (flattenItems h v)

/-- `Tag.flatten(filter_tags=True)`: the tags. -/
def flattenTags (n : Nat) (h : Heap) (v : Val) : List Addr :=
  (flattenAll n h v).filterMap fun w => match w with | .tag a => some a | _ => none

/-- `tag.context = new_context` (`utils/classes.py:137-142`): assigning `None` does nothing. -/
def setContext (h : Heap) (ctx : Option Nat) (a : Addr) : Heap :=
  match ctx with
  | none => h
  | some c =>
    match h[a]? with
    | some (.tag t) => (match h[t.weak]? with | some (.weak _) => h.set t.weak (.weak (some c)) | _ => h)
    | _ => h

/-- `replace_context` (`tags/utils.py:89-105`). -/
def replaceContext (n : Nat) (h : Heap) (v : Val) (ctx : Option Nat) : Heap :=
  (flattenTags n h v).foldl (fun h a => setContext h ctx a) h

/-- `Tag.copy` (`tags/tag.py:145-163`). -/
def copyWith (n : Nat) (h : Heap) (v : Val) (ctx : Option Nat) : Except TagError (Heap × Val) :=
  match copyTag n h v with
  | .error e => .error e
  | .ok (h', w) => .ok (if ctx = none then h' else replaceContext n h' w ctx, w)

/-! ## Formatting -/

/-- Content as it is formatted: a string, a tag with its class and content, or a list. -/
inductive Tree
  | str (s : Str)
  | tag (cls : Str) (content : Tree)
  | list (l : List Tree)
deriving Repr

/-- `''.join(content)` for a list of strings, and the string itself for a string. -/
def joinParts : List Tree → Except TagError Str
  | [] => .ok []
  | .str s :: l => (joinParts l).map (s ++ ·)
  | _ :: _ => .error .type

/-- `''.join(content) if isinstance(content, list) else content` (`tags/tag.py:238`) and
`''.join(content)` (`tags/utils.py:34`), where `content` is the result of `format_content`
(`tags/utils.py:56-59`): the single item, or the list of items. -/
def joinItems (items : List Tree) : Except TagError Str :=
  match items with
  | [.str s] => .ok s
  | [.list l] => joinParts l
  | items => joinParts items

mutual
/-- `getattr(i, format_func)(**kwargs) if hasattr(i, format_func) else i` (`tags/utils.py:57-58`): tags are
formatted, strings and lists are not. `wrap` gives for a class the text around the formatted content (the
identity for `Tag.default_fmt`). -/
def formatItem (wrap : Str → Str → Str) : Tree → Except TagError Tree
  | .str s => .ok (.str s)
  | .list l => .ok (.list l)
  | .tag c (.list l) =>
    match formatItems wrap l with
    | .error e => .error e
    | .ok items => (joinItems items).map fun s => .str (wrap c s)
  | .tag c (.str s) => .ok (.str (wrap c s))
  | .tag c (.tag c' t) =>
    match formatItem wrap (.tag c' t) with
    | .error e => .error e
    | .ok i => (joinItems [i]).map fun s => .str (wrap c s)

/-- The list comprehension of `format_content` (`tags/utils.py:57-58`). -/
def formatItems (wrap : Str → Str → Str) : List Tree → Except TagError (List Tree)
  | [] => .ok []
  | t :: l =>
    match formatItem wrap t with
    | .error e => .error e
    | .ok i =>
      match formatItems wrap l with
      | .error e => .error e
      | .ok is => .ok (i :: is)
end

/-- `content_to_str` (`tags/utils.py:11-35`). -/
def contentToStr (wrap : Str → Str → Str) (t : Tree) : Except TagError Str :=
  match (match t with | .list l => formatItems wrap l | t => formatItems wrap [t]) with
  | .error e => .error e
  | .ok items => joinItems items

/-! ## Tag classes -/

/-- A subclass of `Tag`: its lower-case name, its aliases and whether it is active. -/
structure TagClass where
  name : Str
  aliases : List Str
  active : Bool
deriving Repr, DecidableEq

/-- The entries added for the names of a class (`tags/tag.py:424-427`); `none` for a failed assertion. -/
def addNames (c : TagClass) : List Str → Dict Str TagClass → Option (Dict Str TagClass)
  | [], d => some d
  | n :: ns, d => if d.has n then none else addNames c ns (d.set n c)

/-- `TagFactory.tag_classes` (`tags/tag.py:412-431`). -/
def tagClasses : List TagClass → Dict Str TagClass → Option (Dict Str TagClass)
  | [], d => some d
  | c :: cs, d =>
    match addNames c (c.name :: c.aliases) d with
    | none => none
    | some d' => tagClasses cs d'

/-- The subclasses of `Tag` in `/repo/src/disseminate/tags/*.py` with their aliases and activity, both of which are
inherited from the parent class if not given (`active` of `tags/featurebox.py:20`, `tags/code.py:18`). -/
def allClasses : List TagClass :=
  [⟨"caption".toList, [], true⟩,
   ⟨"authors".toList, ["author".toList], true⟩,
   ⟨"titlepage".toList, [], true⟩,
   ⟨"basefigure".toList, [], false⟩,
   ⟨"marginfigure".toList, ["marginfig".toList], true⟩,
   ⟨"figure".toList, ["fig".toList], true⟩,
   ⟨"fullfigure".toList, ["ffig".toList, "fullfig".toList], true⟩,
   ⟨"panel".toList, [], true⟩,
   ⟨"heading".toList, [], false⟩,
   ⟨"title".toList, ["h1".toList], true⟩,
   ⟨"part".toList, [], true⟩,
   ⟨"chapter".toList, ["h2".toList], true⟩,
   ⟨"section".toList, ["h3".toList], true⟩,
   ⟨"subsection".toList, ["h4".toList], true⟩,
   ⟨"subsubsection".toList, ["h5".toList], true⟩,
   ⟨"para".toList, ["h6".toList], true⟩,
   ⟨"featurebox".toList, [], true⟩,
   ⟨"examplebox".toList, [], true⟩,
   ⟨"problembox".toList, [], true⟩,
   ⟨"body".toList, [], true⟩,
   ⟨"p".toList, [], true⟩,
   ⟨"bold".toList, ["b".toList, "textbf".toList, "strong".toList], true⟩,
   ⟨"italics".toList, ["i".toList, "textit".toList], true⟩,
   ⟨"sup".toList, [], true⟩,
   ⟨"sub".toList, [], true⟩,
   ⟨"supsub".toList, [], true⟩,
   ⟨"symbol".toList, ["smb".toList], true⟩,
   ⟨"verb".toList, ["v".toList, "pre".toList, "verbatim".toList], true⟩,
   ⟨"img".toList, [], true⟩,
   ⟨"eq".toList, ["term".toList, "termb".toList], true⟩,
   ⟨"asy".toList, [], true⟩,
   ⟨"ref".toList, [], true⟩,
   ⟨"next".toList, [], true⟩,
   ⟨"prev".toList, [], true⟩,
   ⟨"tocref".toList, [], false⟩,
   ⟨"otherlink".toList, [], false⟩,
   ⟨"srclink".toList, [], true⟩,
   ⟨"txtlink".toList, [], true⟩,
   ⟨"texlink".toList, [], true⟩,
   ⟨"pdflink".toList, [], true⟩,
   ⟨"epublink".toList, [], true⟩,
   ⟨"cell".toList, [], true⟩,
   ⟨"headercell".toList, [], true⟩,
   ⟨"data".toList, [], false⟩,
   ⟨"delimdata".toList, ["csv".toList, "tsv".toList], true⟩,
   ⟨"sidenote".toList, ["marginnote".toList], true⟩,
   ⟨"labelanchor".toList, [], false⟩,
   ⟨"labeltag".toList, [], false⟩,
   ⟨"basetable".toList, [], false⟩,
   ⟨"margintable".toList, ["margintbl".toList], true⟩,
   ⟨"table".toList, ["tbl".toList], true⟩,
   ⟨"fulltable".toList, ["ftbl".toList, "fulltbl".toList], true⟩,
   ⟨"code".toList, [], true⟩,
   ⟨"python".toList, [], true⟩,
   ⟨"html".toList, [], true⟩,
   ⟨"ruby".toList, [], true⟩,
   ⟨"java".toList, [], true⟩,
   ⟨"javascript".toList, [], true⟩,
   ⟨"dm".toList, [], true⟩,
   ⟨"listitem".toList, [], false⟩,
   ⟨"list".toList, [], true⟩,
   ⟨"orderedlist".toList, ["outline".toList], true⟩,
   ⟨"toc".toList, [], true⟩]

/-- `TagFactory.tag_class` (`tags/tag.py:395-410`); `none` for the class `Tag`. `lower` is `str.lower`. -/
def tagClass (lower : Str → Str) (classes : Dict Str TagClass) (inactive : List Str) (name : Str) : Option TagClass :=
  match classes.get? (lower name) with
  | some c => if c.active && !inactive.contains c.name then some c else none
  | none => none

end Verif.Tags
