import Verif.Model.Composite
import Verif.Spec.Render
import Verif.Spec.ListTag
import Verif.Spec.Text

/-!
# Specification of captions, tables, lists and panels

What they are written as in LaTeX, in terms of what their parts are written as (`Written`), and the trees of plain tags that
they are shown as in html. Of the model only the data types are used.
-/

namespace Verif.Composite.Spec

open Verif Verif.Attrs Verif.Attrs.Spec Verif.Formats Verif.Render Verif.Render.Spec Verif.Composite

/-- What a tree that may be absent is written as. -/
def WrittenOpt (sp : Char → Bool) (math : Bool) (n : Option Node) (x : Str) : Prop :=
  (n = none → x = []) ∧ ∀ m, n = some m → Written sp math m x

/-- A caption in LaTeX: its label and its content in a command, and then the anchor if there is one. -/
def CaptionWritten (sp : Char → Bool) (math : Bool) (label : Option Node) (content : Node) (anchor : Option Node) (out : Str) :
    Prop :=
  ∃ a b i, WrittenOpt sp math label a ∧ Written sp math content b ∧ WrittenOpt sp math anchor i ∧
    out = "\\caption{".toList ++ a ++ b ++ "}".toList ++
      (if anchor = none then [] else " \\label{".toList ++ i ++ "}".toList)

/-- The text with `\&` for `&`. -/
def escaped (x : Str) : Str := x.flatMap fun c => if c = '&' then ['\\', '&'] else [c]

/-- The cells of a row, each written with `\&` for `&`. -/
inductive CellsWritten (sp : Char → Bool) : List Node → List Str → Prop
  | nil : CellsWritten sp [] []
  | cons (c cs x xs) : Written sp false c x → CellsWritten sp cs xs → CellsWritten sp (c :: cs) (escaped x :: xs)

/-- A row: the cells with `&` between them, and `\\` and a newline at the end. -/
def RowWritten (sp : Char → Bool) (cells : List Node) (x : Str) : Prop :=
  ∃ xs, CellsWritten sp cells xs ∧ x = (xs.intersperse " & ".toList).flatten ++ " \\\\\n".toList

/-- The rows one after the other. -/
inductive RowsWritten (sp : Char → Bool) : List (List Node) → Str → Prop
  | nil : RowsWritten sp [] []
  | cons (r rs x y) : RowWritten sp r x → RowsWritten sp rs y → RowsWritten sp (r :: rs) (x ++ y)

/-- The data of a table: an environment with as many columns as there are, the row of the header (if any) between rules, the
other rows, and a rule. -/
def DataWritten (sp : Char → Bool) (c : Cells) (out : Str) : Prop :=
  ∃ h r y, (c.header = none → h = []) ∧
    (∀ cells, c.header = some cells → ∃ x, RowWritten sp cells x ∧ h = x ++ "\\midrule\n".toList) ∧
    RowsWritten sp c.rows r ∧ OnLines ("\\toprule\n".toList ++ h ++ r ++ "\\bottomrule".toList) y ∧
    out = "\n\\begin{tabular}{".toList ++ List.replicate c.cols 'l' ++ "}".toList ++ y ++ "\\end{tabular}\n".toList

/-- The items of a table one after the other. -/
inductive ItemsWritten (sp : Char → Bool) : List Item → Str → Prop
  | nil : ItemsWritten sp [] []
  | data (c l x y) : DataWritten sp c x → ItemsWritten sp l y → ItemsWritten sp (.data c :: l) (x ++ y)
  | node (n l x y) : Written sp false n x → ItemsWritten sp l y → ItemsWritten sp (.node n :: l) (x ++ y)

/-- The environments of tables. -/
def tableEnvs : List (Table × String) := [(.margin, "margintable"), (.plain, "table"), (.full, "table*")]

/-- A table: an environment with its items. -/
def TableWritten (sp : Char → Bool) (k : Table) (items : List Item) (out : Str) : Prop :=
  ∃ (e : String) (x y : Str), (k, e) ∈ tableEnvs ∧ ItemsWritten sp items x ∧ OnLines x y ∧
    out = "\n\\begin{".toList ++ e.toList ++ "}".toList ++ y ++ "\\end{".toList ++ e.toList ++ "}\n".toList

/-- The items of a list, each with one mark more than its level, on a line. -/
inductive BulletsWritten (sp : Char → Bool) (math : Bool) : List (Nat × Node) → Str → Prop
  | nil : BulletsWritten sp math [] []
  | cons (n c l x y) : Written sp math c x → BulletsWritten sp math l y →
      BulletsWritten sp math ((n, c) :: l) (List.replicate (n + 1) '§' ++ " ".toList ++ x ++ "\n".toList ++ y)

/-- A list: an environment with its items. -/
def ListWritten (sp : Char → Bool) (math : Bool) (items : List (Nat × Node)) (out : Str) : Prop :=
  ∃ x y, BulletsWritten sp math items x ∧ OnLines x y ∧
    out = "\n\\begin{easylist}[itemize]".toList ++ y ++ "\\end{easylist}\n".toList

/-- A panel of the width `w`: an environment without empty lines, and without newlines around it. -/
def PanelWritten (sp : Char → Bool) (math : Bool) (w : Str) (content : Node) (out : Str) : Prop :=
  ∃ x y z, Written sp math content x ∧ OnLines x y ∧ Utils.OneNewline (w ++ "}".toList ++ y) z ∧
    out = "\\begin{panel}{".toList ++ z ++ "\\end{panel}".toList

/-! ### Html -/

/-- A plain tag. -/
def plain (name : String) (d : ADict) (l : List Node) : Node := .tag .generic name.toList d (.list l)

/-- A plain tag with a content. -/
def cell (name : String) (c : Node) : Node := .tag .generic name.toList [] c

/-- The items of a content. -/
inductive ItemsOf : Node → List Node → Prop
  | list (l) : ItemsOf (.list l) l
  | one (n) : ¬ IsList n → ItemsOf n [n]

/-- The data of a table: the header row in a head (if there is a header), and the other rows in a body. -/
def dataTree (c : Cells) : List Node :=
  (c.header.toList.map fun h => plain "thead" [] [plain "tr" [] (h.map (cell "th"))]) ++
  [plain "tbody" [] (c.rows.map fun r => plain "tr" [] (r.map (cell "td")))]

/-- The items of a table. -/
def itemsTree : List Item → List Node
  | [] => []
  | .data c :: l => dataTree c ++ itemsTree l
  | .node n :: l => n :: itemsTree l

/-- The classes of tables. -/
def tableClasses : List (Table × String) := [(.margin, "margintbl"), (.plain, "table"), (.full, "fulltable")]

/-- The attributes of a table in html: those for html, and the class of the table after a class that is given. -/
def TableAttrs (k : Table) (d d' : ADict) : Prop :=
  (∀ a, ¬ Suffixed trackedTargets a → a ≠ "class".toList → d'.get? a = valueFor d "html".toList a) ∧
  ∃ c : String, (k, c) ∈ tableClasses ∧
    (valueFor d "html".toList "class".toList = none ∧ d'.get? "class".toList = some (.str c.toList) ∨
      ∃ v, valueFor d "html".toList "class".toList = some (.str v) ∧
        d'.get? "class".toList = some (.str (v ++ " ".toList ++ c.toList)))

mutual
/-- A list item, or an inner list, as a tag. -/
def itemTree (name : String) : ListTag.Node Node → Node
  | .li x => cell "li" x
  | .sub l => plain name [] (listTree name l)
/-- The same for the elements of a list. -/
def listTree (name : String) : List (ListTag.Node Node) → List Node
  | [] => []
  | x :: l => itemTree name x :: listTree name l
end

/-- The names of the elements are in lower case. -/
def LowerFine (lower : Str → Str) : Prop :=
  ∀ n ∈ ["thead", "tbody", "tr", "th", "td", "table", "li", "ul", "ol", "span", "figcaption", "caption", "panel"],
    lower (String.toList n) = String.toList n

/-! ### Texts -/

/-- The texts of cells: in LaTeX with `\&` for `&`. -/
inductive CellTexts (sp : Char → Bool) (tex : Bool) : List Node → List Str → Prop
  | nil : CellTexts sp tex [] []
  | cons (c cs ts us) : HasTexts sp tex c ts → CellTexts sp tex cs us →
      CellTexts sp tex (c :: cs) ((if tex then ts.map escaped else ts) ++ us)

/-- The texts of the items of a table. -/
inductive ItemTexts (sp : Char → Bool) (tex : Bool) : List Item → List Str → Prop
  | nil : ItemTexts sp tex [] []
  | data (c l ts us) : CellTexts sp tex (c.header.getD [] ++ c.rows.flatten) ts → ItemTexts sp tex l us →
      ItemTexts sp tex (.data c :: l) (ts ++ us)
  | node (n l ts us) : HasTexts sp tex n ts → ItemTexts sp tex l us → ItemTexts sp tex (.node n :: l) (ts ++ us)

/-- A tree whose texts have balanced braces, and whose attributes have none. -/
def Tidy (sp : Char → Bool) (n : Node) : Prop := NoBraces n ∧ ∀ ts, HasTexts sp true n ts → ∀ t ∈ ts, Parser.Spec.Balanced t

/-- All the cells, and all the other items, of a table are trees with the property `p`. -/
def AllItems (p : Node → Prop) (items : List Item) : Prop :=
  ∀ i ∈ items, (∀ n, i = .node n → p n) ∧
    ∀ c, i = .data c → (∀ h, c.header = some h → ∀ n ∈ h, p n) ∧ ∀ r ∈ c.rows, ∀ n ∈ r, p n

end Verif.Composite.Spec
