import Verif.Model.Render
import Verif.Model.Data
import Verif.Model.ListTag
import Verif.Model.Text

/-!
# Captions, tables, lists and panels in trees

Model of `src/disseminate/tags/caption.py`, `table.py`, `figs.py` (`Panel`), the rendering in `data.py` and `list.py`, and
of the label tags of `label.py`, on the trees of `Verif.Model.Render`. The contents of cells, list items and label tags are
the trees that the tag parser makes of their texts (`Verif.Model.Parser`); the labels themselves are in
`Verif.Model.Labels` and `Verif.Model.LabelText`.

Each tag is a node of its own, `Node.other`, with its LaTeX and html; its texts (`texts`) are given along with it, and are
not used by the rendering.
-/

namespace Verif.Composite

open Verif Verif.Attrs Verif.Formats Verif.Render

/-- `Tag.html_fmt` with a name, attributes and a content (`tags/tag.py:315-328`). -/
def wrapHtml (sp : Char → Bool) (lower : Str → Str) (name : Str) (d : ADict) (content : Node) : Except RErr Html :=
  (htmlFmt sp lower content).bind (element name d)

/-! ### Labels and captions -/

/-- `LabelTag` (`tags/label.py:205-320`): in LaTeX the label text, in html an element `span` with the class `label`. `text` is
what the label's format string is as a content, `d` are the attributes but for `id` (`:253-257`). -/
def labelNode (d : ADict) (text : Node) : Node := .tag .generic "span".toList (d.set "class".toList (.str "label".toList)) text

/-- `content` as a list (`tags/caption.py:109-112`). -/
def asList : Node → List Node
  | .list l => l
  | n => [n]

/-- The label tag in LaTeX, if there is one (`tags/caption.py:84-86`). -/
def optTex (sp : Char → Bool) (math : Bool) : Option Node → Except RErr Str
  | some l => texFmt sp math l
  | none => .ok []

/-- `Caption.tex_fmt` (`tags/caption.py:78-100`). `anchor` is the content of the label anchor (`tags/label.py:183-196`). -/
def captionTex (sp : Char → Bool) (d : ADict) (label : Option Node) (content : Node) (anchor : Option Node) (math : Bool) :
    Except RErr Str :=
  (optTex sp math label).bind fun a =>
  (texFmt sp math content).bind fun b =>
  (cmd "caption".toList d (a ++ b)).bind fun c =>
  match anchor with
  | some i => (texFmt sp math i).bind fun i => (cmd "label".toList d i).map fun l => c ++ ' ' :: l
  | none => .ok c

/-- `Caption.html_fmt` (`tags/caption.py:102-114`). `name` is `span`, `figcaption` or `caption` (`:35`; `tags/figs.py:42`;
`tags/table.py:35`). -/
def captionHtml (sp : Char → Bool) (lower : Str → Str) (name : Str) (d : ADict) (label : Option Node) (content : Node) :
    Except RErr Html :=
  wrapHtml sp lower name d (.list (label.toList ++ asList content))

/-- A caption. -/
def captionNode (sp : Char → Bool) (lower : Str → Str) (name : Str) (d : ADict) (label : Option Node) (content : Node)
    (anchor : Option Node) (texts : Bool → List Str) : Node :=
  .other texts (captionTex sp d label content anchor) (captionHtml sp lower name d label content)

/-! ### Tables -/

/-- The cells of a table: the number of columns, the header cells if there are any, and the rows
(`Data.process_tags`, `tags/data.py:80-100`). -/
structure Cells where
  cols : Nat
  header : Option (List Node)
  rows : List (List Node)

/-- The cells of delimited data (`tags/data.py:80-100`), each with the content that the parser makes of its text. -/
def cellsOf (content : Str → Node) (noheader : Bool) (data : Dict Data.Key (List Str)) : Cells :=
  { cols := data.length
    header := if noheader then none else some ((Data.headers data).map fun k => content (Data.showKey k))
    rows := (Data.rowsTranspose data).map fun r => r.map content }

/-- An item of a table: delimited data, or anything else. -/
inductive Item
  | data (c : Cells)
  | node (n : Node)

/-- `Cell.tex_fmt` and `HeaderCell.tex_fmt` (`tags/data.py:22-25`, `:34-37`) for the cells of a row. -/
def cellsTex (sp : Char → Bool) : List Node → Except RErr (List Str)
  | [] => .ok []
  | c :: cs => (texFmt sp false c).bind fun x => (cellsTex sp cs).map (Data.cellTex x :: ·)

/-- A line of the table (`tags/data.py:190-192`, `:197-199`). -/
def rowTex (sp : Char → Bool) (cells : List Node) : Except RErr Str :=
  (cellsTex sp cells).map fun xs => join " & ".toList xs ++ " \\\\\n".toList

/-- The lines of the rows (`tags/data.py:195-201`). -/
def rowsTex (sp : Char → Bool) : List (List Node) → Except RErr Str
  | [] => .ok []
  | r :: rs => (rowTex sp r).bind fun x => (rowsTex sp rs).map (x ++ ·)

/-- `DelimData.tex_table` (`tags/data.py:181-204`); `tex_cmd` of the rules gives a backslash and the name. -/
def dataTex (sp : Char → Bool) (c : Cells) : Except RErr Str :=
  (match c.header with
    | some h => (rowTex sp h).map (· ++ "\\midrule\n".toList)
    | none => .ok []).bind fun h =>
  (rowsTex sp c.rows).map fun r => "\\toprule\n".toList ++ h ++ r ++ "\\bottomrule".toList

/-- `Attributes('l' * item.num_cols)` (`tags/table.py:57-59`, `formats/tex.py:126-128`). -/
def columns (n : Nat) : ADict := if n = 0 then [] else [(List.replicate n 'l', .pos .string)]

/-- The items of the loop of `BaseTable.tex_fmt` (`tags/table.py:48-64`). The text of a tabular environment is added
character by character: they are joined again. -/
def itemsTex (sp : Char → Bool) : List Item → Except RErr (List Node)
  | [] => .ok []
  | .data c :: l => (dataTex sp c).bind fun t => (env "tabular".toList (columns c.cols) t).bind fun x =>
      (itemsTex sp l).map (x.map (fun ch => Node.str [ch]) ++ ·)
  | .node (.str s) :: l => (itemsTex sp l).map (.str s :: ·)
  | .node (.list l') :: l => (itemsTex sp l).map (.list l' :: ·)
  | .node n :: l => (texFmt sp false n).bind fun x => (itemsTex sp l).map (.str x :: ·)

/-- The tables (`tags/table.py:115-139`). -/
inductive Table
  | margin | plain | full
deriving Repr, DecidableEq

/-- The environments of tables (`tags/table.py:120`, `:129`, `:138`). -/
def Table.env : Table → Str
  | .margin => "margintable".toList
  | .plain => "table".toList
  | .full => "table*".toList

/-- The classes of tables in html (`tags/table.py:119`, `:128`, `:137`). -/
def Table.cls : Table → Str
  | .margin => "margintbl".toList
  | .plain => "table".toList
  | .full => "fulltable".toList

/-- `BaseTable.tex_fmt` (`tags/table.py:41-68`). -/
def tableTex (sp : Char → Bool) (k : Table) (d : ADict) (items : List Item) : Except RErr Str :=
  (itemsTex sp items).bind fun l => (joinItems l).bind (env k.env d)

/-- The cells of a row in html (`tags/data.py:216-217`, `:229-230`). -/
def cellsHtml (sp : Char → Bool) (lower : Str → Str) (name : Str) : List Node → Except RErr (List (Part (Option Html)))
  | [] => .ok []
  | c :: cs => (wrapHtml sp lower name [] c).bind fun h => (cellsHtml sp lower name cs).map (.elem (some h) :: ·)

/-- A row in html (`tags/data.py:219-220`, `:232-233`). -/
def rowHtml (sp : Char → Bool) (lower : Str → Str) (name : Str) (cells : List Node) : Except RErr Html :=
  (cellsHtml sp lower name cells).bind (element "tr".toList [])

/-- The rows in html (`tags/data.py:227-234`). -/
def rowsHtml (sp : Char → Bool) (lower : Str → Str) : List (List Node) → Except RErr (List (Part (Option Html)))
  | [] => .ok []
  | r :: rs => (rowHtml sp lower "td".toList r).bind fun h => (rowsHtml sp lower rs).map (.elem (some h) :: ·)

/-- `DelimData.html_table` (`tags/data.py:206-240`). -/
def dataHtml (sp : Char → Bool) (lower : Str → Str) (c : Cells) : Except RErr (List (Part (Option Html))) :=
  (match c.header with
    | some h => (rowHtml sp lower "th".toList h).bind fun tr =>
        (element "thead".toList [] [Part.elem (some tr)]).map fun e => [Part.elem (some e)]
    | none => Except.ok []).bind fun h =>
  (rowsHtml sp lower c.rows).bind fun r =>
  (element "tbody".toList [] r).map fun e => h ++ [Part.elem (some e)]

/-- The items of the loop of `BaseTable.html_fmt` (`tags/table.py:85-105`). -/
def itemsHtml (sp : Char → Bool) (lower : Str → Str) : List Item → Except RErr (List (Part (Option Html)))
  | [] => .ok []
  | .data c :: l => (dataHtml sp lower c).bind fun ps => (itemsHtml sp lower l).map (ps ++ ·)
  | .node (.str s) :: l => (itemsHtml sp lower l).map (.text s :: ·)
  | .node (.list _) :: l => (itemsHtml sp lower l).map (.elem none :: ·)
  | .node n :: l => (htmlFmt sp lower n).bind fun ps => (itemsHtml sp lower l).map (ps ++ ·)

/-- The attributes of a table in html (`tags/table.py:72-79`). -/
def tableAttrs (k : Table) (d : ADict) : Except RErr ADict :=
  let d' := Attrs.filter trackedTargets d none (some ".html".toList)
  match d'.get? "class".toList with
  | some (.str v) => .ok (d'.set "class".toList (.str (v ++ ' ' :: k.cls)))
  | some (.pos _) => .error .type
  | none => .ok (d'.set "class".toList (.str k.cls))

/-- The formatted contents of a table. If its only item is a list, they are the items of the list (`tags/utils.py:59`). -/
def tableParts (sp : Char → Bool) (lower : Str → Str) (items : List Item) : Except RErr (List (Part (Option Html))) :=
  match items with
  | [.node (.list l)] => .ok (rawParts l)
  | items => itemsHtml sp lower items

/-- `BaseTable.html_fmt` (`tags/table.py:70-109`). -/
def tableHtml (sp : Char → Bool) (lower : Str → Str) (k : Table) (d : ADict) (items : List Item) : Except RErr Html :=
  (tableAttrs k d).bind fun d' => (tableParts sp lower items).bind (element "table".toList d')

/-- A table. -/
def tableNode (sp : Char → Bool) (lower : Str → Str) (k : Table) (d : ADict) (items : List Item) (texts : Bool → List Str) :
    Node :=
  .other texts (fun _ => tableTex sp k d items) (tableHtml sp lower k d items)

/-! ### Lists -/

/-- `ListItem.tex_fmt` (`tags/list.py:208-211`) for the items of a list. -/
def listItemsTex (sp : Char → Bool) (math : Bool) : List (Nat × Node) → Except RErr Str
  | [] => .ok []
  | (n, c) :: l => (texFmt sp math c).bind fun x => (listItemsTex sp math l).map (ListTag.texItem (n, x) ++ ·)

/-- `List.tex_fmt` (`tags/list.py:238-239`). -/
def listTex (sp : Char → Bool) (items : List (Nat × Node)) (math : Bool) : Except RErr Str :=
  (listItemsTex sp math items).bind (env "easylist".toList [("itemize".toList, .pos .string)])

/-- The name of the element (`tags/list.py:218`, `:259`). -/
def listName (ordered : Bool) : Str := if ordered then "ol".toList else "ul".toList

mutual
/-- A list item, or an inner list, as a tag. -/
def listNode (name : Str) : ListTag.Node Node → Node
  | .li x => .tag .generic "li".toList [] x
  | .sub l => .tag .generic name [] (.list (listNodes name l))
/-- The same for the elements of a list. -/
def listNodes (name : Str) : List (ListTag.Node Node) → List Node
  | [] => []
  | x :: l => listNode name x :: listNodes name l
end

/-- `List.html_fmt` (`tags/list.py:241-252`) with `xhtml_list` (`formats/xhtml.py:227-308`). Simplification: the items are
formatted after they are put in lists, not before. The attributes of the tag are not passed on, `level` is not an
allowed attribute of the elements. -/
def listHtml (sp : Char → Bool) (lower : Str → Str) (ordered : Bool) (items : List (Nat × Node)) : Except RErr Html :=
  wrapHtml sp lower (listName ordered) [] (.list (listNodes (listName ordered) (ListTag.renderList items)))

/-- A list. -/
def listTagNode (sp : Char → Bool) (lower : Str → Str) (ordered : Bool) (items : List (Nat × Node)) (texts : Bool → List Str) :
    Node :=
  .other texts (listTex sp items) (listHtml sp lower ordered items)

/-! ### Panels -/

/-- `Panel.tex_fmt` (`tags/figs.py:100-109`). -/
def panelTex (sp : Char → Bool) (parse parsePct : Str → Option PyFloat) (clsStr : PType → Str) (d : ADict) (content : Node)
    (math : Bool) : Except RErr Str :=
  match texPercentwidth parse parsePct clsStr trackedTargets d ".tex".toList true with
  | none => .error .other
  | some d' => (texFmt sp math content).bind fun x => (env "panel".toList d' x).map fun y =>
      strip sp (Utils.stripMultiNewlines false y)

/-- `Panel.html_fmt` (`tags/figs.py:111-118`). -/
def panelHtml (sp : Char → Bool) (lower : Str → Str) (parse parsePct : Str → Option PyFloat) (d : ADict) (content : Node)
    (target : Str) : Except RErr Html :=
  match xhtmlPercentwidth parse parsePct trackedTargets (d.set "class".toList (.str "panel".toList)) target with
  | none => .error .other
  | some d' => wrapHtml sp lower "panel".toList d' content

/-- A panel. -/
def panelNode (sp : Char → Bool) (lower : Str → Str) (parse parsePct : Str → Option PyFloat) (clsStr : PType → Str) (d : ADict)
    (content : Node) (target : Str) (texts : Bool → List Str) : Node :=
  .other texts (panelTex sp parse parsePct clsStr d content) (panelHtml sp lower parse parsePct d content target)

end Verif.Composite
