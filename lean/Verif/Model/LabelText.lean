import Verif.Model.Labels
import Verif.Model.Macros
import Verif.Model.Utils
import Verif.Model.Settings
import Verif.Model.Typography

/-!
# Model of the titles, identifiers and texts of labels

Models `titlelize` of `/repo/src/disseminate/utils/string.py`, `tags/label.py`, the labels of
`tags/headings.py`, `tags/caption.py` and `tags/figs.py`, and `LabelManager.format_string`.

Simplifications: the attributes `id` and `short` are texts; `slugify` (an external package) and `hashtxt`
are arbitrary functions; the content of a tag is given by its text (`content_to_str`), and whether it is a string.
-/

namespace Verif.LabelText

open Verif Verif.Labels

/-! ### Titles -/

/-- The words of `titlelize` that are not capitalized (`utils/string.py:48`). -/
def small : List Str := ["in".toList, "to".toList, "a".toList]

/-- The capitalization in `titlelize` (`utils/string.py:44-49`); `title` is `str.title`. -/
def capitalizeWords (title : Str → Str) : List Str → List Str
  | w :: ws => if (w :: ws).length > 2 then title w :: ws.map (fun p => if p ∈ small then p else title p) else w :: ws
  | [] => []

/-- `titlelize` (`utils/string.py:20-52`). -/
def titlelize (title : Str → Str) (truncate capitalize : Bool) (s : Str) : Str :=
  let lines := (split ['\n'] s).filter (· ≠ [])
  let s := join [' '] lines
  let pieces := split ['.', ' '] s
  let s := if truncate then pieces.headD [] else join ['.', ' '] pieces
  let pieces := (split [' '] s).filter (· ≠ [])
  let pieces := if capitalize then capitalizeWords title pieces else pieces
  strip (· = '.') (join [' '] pieces)

/-! ### Identifiers -/

/-- What matters of a tag for its label. -/
structure Source where
  /-- The attribute `id`. -/
  id : Option Str
  /-- The attribute `short`. -/
  short : Option Str
  /-- `content_to_str(content)`. -/
  text : Str
  /-- `isinstance(content, str)`. -/
  plain : Bool

/-- The functions that are not modelled: `slugify`, `hashtxt`, `str.title`, and the class of spaces. -/
structure Ext where
  slug : Str → Str
  hash : Str → Str
  title : Str → Str
  sp : Char → Bool

/-- The condensed title, as `create_label` and `generate_label_id` ask for it. -/
def Ext.condense (x : Ext) (s : Str) : Str := titlelize x.title true false s

/-- `generate_label_id` (`tags/label.py:14-62`), with the `label_count` of the context before and after. -/
def generateLabelId (x : Ext) (docId : Str) (count : Nat) (t : Source) : Str × Nat :=
  match t.id, t.short with
  | some id, _ => (id, count)
  | none, some short => (x.slug (join ['-'] [docId, x.condense short]), count)
  | none, none =>
    if t.plain && strip x.sp t.text = [] then (join ['-'] [x.slug docId, Nat.toDigits 10 (count + 1)], count + 1)
    else (x.slug (join ['-'] [docId, x.condense t.text]), count)

/-- The levels of headings, with the name of the class in lower case (`tags/headings.py:127-174`). -/
inductive Level
  | title | part | chapter | section | subsection | subsubsection
deriving Repr, DecidableEq

/-- `self.__class__.__name__.lower()`. -/
def Level.name : Level → Str
  | .title => "title".toList
  | .part => "part".toList
  | .chapter => "chapter".toList
  | .section => "section".toList
  | .subsection => "subsection".toList
  | .subsubsection => "subsubsection".toList

/-- `id_mappings` (`tags/headings.py:28-34`). -/
def Level.abbr : Level → Str
  | .title => "title".toList
  | .part => "part".toList
  | .chapter => "ch".toList
  | .section => "sec".toList
  | .subsection => "subsec".toList
  | .subsubsection => "subsubsec".toList

/-- `Heading.generate_label_id` (`tags/headings.py:52-60`). -/
def headingId (x : Ext) (docId : Str) (count : Nat) (level : Level) (t : Source) : Str × Nat :=
  match t.id with
  | some id => (id, count)
  | none =>
    let (id, count) := generateLabelId x docId count t
    (join [':'] [level.abbr, id], count)

/-- `Caption.generate_label_id` (`tags/caption.py:51-63`); `labelId` is the identifier given by the figure. At this point a
caption has no label tag, so `default_fmt` is the text of its content. -/
def captionId (x : Ext) (labelId : Option Str) (t : Source) : Str :=
  match labelId, t.id with
  | some id, _ => id
  | none, some id => id
  | none, none => "caption-".toList ++ x.hash t.text

/-- `create_label` (`tags/label.py:65-114`), for a given identifier: the state of the manager, and the label or `none` for
`DuplicateLabel`. -/
def createLabel (x : Ext) (sep docId : Str) (m : Manager) (kind : List Str) (labelId : Str) (t : Source) :
    Manager × Option Label :=
  m.addLabel sep labelId (some kind) docId true (t.short.getD (x.condense t.text))

/-- The label of a heading without `nolabel` (`tags/headings.py:47-60`, `tags/label.py:162-172`): the state of the manager, the count
of the document, the label and its identifier. -/
def headingLabel (x : Ext) (sep docId : Str) (m : Manager) (count : Nat) (level : Level) (t : Source) :
    (Manager × Nat) × Option (Label × Str) :=
  let (id, count) := headingId x docId count level t
  let (m, l) := createLabel x sep docId m ["heading".toList, level.name] id t
  ((m, count), l.map (·, id))

/-- The labels of the captions of a figure with the attribute `figId` (`tags/figs.py:26-46`): the first caption gets the
identifier of the figure. -/
def figureLabels (x : Ext) (sep docId : Str) : Manager → Option Str → List Source → Manager × Option (List (Label × Str))
  | m, _, [] => (m, some [])
  | m, figId, t :: ts =>
    let id := captionId x figId t
    match createLabel x sep docId m ["caption".toList, "figure".toList] id t with
    | (m, none) => (m, none)
    | (m, some l) =>
      match figureLabels x sep docId m none ts with
      | (m, none) => (m, none)
      | (m, some ls) => (m, some ((l, id) :: ls))

/-! ### Texts -/

/-- The objects that macros in the format of a label can reach. -/
inductive Obj
  | none | label (l : Label) | text (s : Str) | num (n : Nat) | other (s : Str)

/-- A number of an enclosing heading, an empty text if there is none (`types/content_label.py:5-11`). -/
def numberOf : Option Label → Obj
  | some l => match labelNumber l with
    | some n => .num n
    | none => .text []
  | none => .text []

/-- The attributes of a label (`types/label.py`, `types/content_label.py`, `types/document_label.py`) that formats use. -/
def labelAttr (m : Manager) (l : Label) (a : Str) : Option Obj :=
  let ofRank (r : Rank) : Option Obj := if l.content then some (numberOf (m.deref (l.links r))) else none
  if a = "title".toList then some (.text l.title)
  else if a = "id".toList then some (.text l.id)
  else if a = "doc_id".toList then some (.text l.docId)
  else if a = "number".toList then
    some (match labelNumber l with
      | some n => .num n
      | none => .none)
  else if a = "part_number".toList then ofRank .part
  else if a = "chapter_number".toList then ofRank .chapter
  else if a = "section_number".toList then ofRank .section
  else if a = "subsection_number".toList then ofRank .subsection
  else if a = "subsubsection_number".toList then ofRank .subsubsection
  else if a = "tree_number".toList then
    if l.content then some (.text (join ['.'] ((m.treeNumber l).map (Nat.toDigits 10)))) else none
  else none

/-- Labels, texts and numbers as objects of macros. `more` are the other attributes of Python objects, like methods, and
`repr` is the text of a label. -/
def objs (m : Manager) (more : Obj → Str → Option Obj) (repr : Label → Str) : Macros.Objs where
  O := Obj
  nothing := .none
  isNone := fun o => match o with
    | .none => true
    | _ => false
  attr := fun o a => match o with
    | .none => .none
    | .label l => (labelAttr m l a).or (more (.label l) a)
    | o => more o a
  str := fun o => match o with
    | .none => "None".toList
    | .label l => repr l
    | .text s => s
    | .num n => Nat.toDigits 10 n
    | .other s => s

/-- The exceptions raised by the functions of this file. -/
inductive Err
  | labelNotFound | key | type | noEnd | tex (e : Formats.TexErr)

/-- What the substitution of macros depends on: word characters, spaces, attributes of other objects and the text of a label. -/
structure Env where
  isWord : Char → Bool
  sp : Char → Bool
  more : Obj → Str → Option Obj
  repr : Label → Str
  fuel : Nat

/-- `format_string` (`label_manager.py:334-367`); `keys` is empty for the kind of the label. `fmts` is the entry `label_fmts` of
the root context. A label without kind gives a `TypeError`, a missing format a `KeyError`. -/
def formatString (e : Env) (m : Manager) (env : Labels.Env) (sep : Str) (fmts : Option (Dict Str Str)) (id : Str)
    (keys : List Str) (target : Option Str) : Except Err Str :=
  let (m, l) := m.getLabel env sep id
  match l with
  | none => .error .labelNotFound
  | some l =>
    let target := target.map fun t => if t.head? = some '.' then t.drop 1 else t
    let keys := if keys ≠ [] then some keys else l.kind
    match keys with
    | none => .error .type
    | some keys =>
      match Utils.findEntry ['_'] target keys fmts.toList with
      | none => .error .key
      | some fmt =>
        match Macros.replaceMacros (objs m e.more e.repr) e.isWord e.sp [[("@label".toList, .label l)]] e.fuel fmt with
        | none => .error .noEnd
        | some s => .ok s

/-- `label_fmts` (`settings.py:124-146`). -/
def labelFmts : Dict Str Str :=
  [("document".toList, "@label.title".toList), ("ref_document".toList, "@label.title".toList),
   ("caption_figure".toList, "@b{Fig. @label.number}. ".toList), ("caption_table".toList, "@b{Table @label.number}. ".toList),
   ("ref_caption_figure".toList, "@b{Fig. @label.number}".toList),
   ("ref_caption_table".toList, "@b{Table @label.number}".toList),
   ("heading".toList, "@label.tree_number. @label.title".toList), ("heading_title".toList, "@label.title".toList),
   ("heading_part".toList, "Part @label.part_number. @label.title".toList),
   ("heading_chapter".toList, "Chapter @label.chapter_number. @label.title".toList),
   ("ref_heading".toList, "@label.title".toList),
   ("ref_heading_part".toList, "Part @label.part_number. @label.title".toList),
   ("ref_heading_chapter".toList, "Chapter @label.chapter_number. @label.title".toList)]

/-- The text of a reference to a label that was found (`tags/ref.py:270-276`, `:339-350`): the label is looked up again, by its
identifier without the document. -/
def refText (e : Env) (m : Manager) (env : Labels.Env) (sep : Str) (fmts : Option (Dict Str Str)) (id target : Str) :
    Except Err Str :=
  match (m.getLabel env sep id).2 with
  | none => .error .labelNotFound
  | some l => match l.kind with
    | none => .error .type
    | some kind => formatString e m env sep fmts l.id ("ref".toList :: kind) (some target)

/-- `Heading.tex_fmt` (`tags/headings.py:79-111`) for a heading with a label: `text` is the label tag in LaTeX, `d` the attributes,
`id` the identifier of the label. The label anchor (`tags/label.py:183-196`) is a tag with the identifier as its content, and
so the typography is applied to it (identifiers with `@` are left out). -/
def headingTex (e : Env) (m : Manager) (env : Labels.Env) (sep : Str) (level : Level) (d : Attrs.ADict) (text id : Str) :
    Except Err Str :=
  let cmd (c : Str) (d : Attrs.ADict) (s : Option Str) : Except Err Str :=
    match Formats.texCmd Attrs.trackedTargets (Formats.posTable Formats.texCmdArguments)
      (Formats.nameTable Formats.texCmdOptionals) c d s with
    | .ok s => .ok s
    | .error e => .error (.tex e)
  match cmd level.name d (some text) with
  | .error e => .error e
  | .ok heading =>
    match (m.getLabel env sep id).2 with
    | none => .error .labelNotFound
    | some l =>
      match l.order.bind List.getLast? with
      | none => .error .type
      | some n =>
        let number := if n = 0 then "-1".toList else Nat.toDigits 10 (n - 1)
        match cmd "setcounter".toList [(level.name, .pos .string), (number, .pos .int)] none,
          cmd "label".toList [] (some (Typography.typo e.sp e.isWord id)) with
        | .ok counter, .ok anchor => .ok (counter ++ '\n' :: heading ++ ' ' :: anchor)
        | .error e, _ => .error e
        | _, .error e => .error e

end Verif.LabelText
