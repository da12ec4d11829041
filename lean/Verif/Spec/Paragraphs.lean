import Verif.Model.Paragraphs

/-!
# Specification for paragraphs
-/

namespace Verif.Para

open Verif

/-- A blank line: whitespace with two newlines (or more). -/
def Blank (sp : Char → Bool) (w : Str) : Prop := (∀ c ∈ w, sp c = true) ∧ 2 ≤ w.count '\n'

/-- There is a blank line in a text. -/
def HasBlank (sp : Char → Bool) (s : Str) : Prop := ∃ w, w <:+: s ∧ Blank sp w

/-- The pieces of a text between its blank lines: the text is the pieces with blank lines between them, that take
all whitespace around them, and no piece has a blank line. -/
inductive Pieces (sp : Char → Bool) : Str → List Str → Prop
  | last {s : Str} (h : ¬ HasBlank sp s) : Pieces sp s [s]
  | cons {p w r : Str} {ps : List Str} (hp : ¬ HasBlank sp p) (he : ∀ c ∈ p.getLast?, sp c = false) (hw : Blank sp w)
    (hr : ∀ c ∈ r.head?, sp c = false) (h : Pieces sp r ps) : Pieces sp (p ++ w ++ r) (p :: ps)

/-- A part of the contents: something that belongs in a paragraph, a paragraph break, or something that is not in
paragraphs. -/
inductive Tok
  | leaf (i : Item)
  | brk
  | out (i : Item)

/-- The parts of the pieces of a string. -/
def pieceToks : List Str → List Tok
  | [] => []
  | [p] => if p = [] then [] else [.leaf (.str p)]
  | p :: ps => (if p = [] then [] else [.leaf (.str p)]) ++ .brk :: pieceToks ps

/-- The parts of an item. -/
inductive ItemToks (sp : Char → Bool) : Item → List Tok → Prop
  | str {s ps} (h : Pieces sp s ps) : ItemToks sp (.str s) (pieceToks ps)
  | incl {i t} : ItemToks sp (.obj i true t) [.leaf (.obj i true t)]
  | excl {i t} : ItemToks sp (.obj i false t) [.out (.obj i false t)]
  | list {l} : ItemToks sp (.list l) [.out (.list l)]
  | p {c} : ItemToks sp (.p c) [.out (.p c)]

/-- The parts of a list of items. -/
inductive Toks (sp : Char → Bool) : List Item → List Tok → Prop
  | nil : Toks sp [] []
  | cons {i is t ts} (hi : ItemToks sp i t) (h : Toks sp is ts) : Toks sp (i :: is) (t ++ ts)

/-- Paragraphs and what is between them. -/
inductive Block
  | para (l : List Item)
  | brk
  | out (i : Item)

def Block.toks : Block → List Tok
  | .para l => l.map .leaf
  | .brk => [.brk]
  | .out i => [.out i]

/-- What a block gives in the result: a paragraph is a list, a break is nothing. -/
def Block.result : Block → List Item
  | .para l => [.list l]
  | .brk => []
  | .out i => [i]

def Block.isPara : Block → Prop
  | .para _ => True
  | _ => False

/-- Paragraphs are not empty, and as long as possible: two of them are never side by side. -/
def Maximal : List Block → Prop
  | [] => True
  | .para l :: bs => l ≠ [] ∧ (∀ b ∈ bs.head?, ¬ b.isPara) ∧ Maximal bs
  | _ :: bs => Maximal bs

/-- A tag, also one that is a paragraph. -/
def TagItem : Item → Bool
  | .obj _ _ tag => tag
  | .p _ => true
  | .str _ => false
  | .list _ => false

end Verif.Para
