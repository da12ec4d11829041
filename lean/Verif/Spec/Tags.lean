import Verif.Model.Tags

/-!
# Specification of tag objects
-/

namespace Verif.Tags

open Verif

/-- The whole content of a tag object: what a reader of the tag sees. -/
inductive Full
  | str (s : Str)
  | list (l : List Full)
  | tag (cls name : Str) (attrs : Dict Str Str) (ctx : Option Nat) (content : Full)

/-- Reads the items of a list, if all can be read. -/
def readItems (rec : Val → Option Full) : List Val → Option (List Full)
  | [] => some []
  | v :: l =>
    match rec v, readItems rec l with
    | some f, some fs => some (f :: fs)
    | _, _ => none

/-- Reads a value, to a depth of `n` objects: `none` if it is deeper, has dangling addresses or contains other
values than strings, lists and tags. -/
def read : Nat → Heap → Val → Option Full
  | 0, _, _ => none
  | n + 1, h, v =>
    match v with
    | .str s => some (.str s)
    | .other => none
    | .list a =>
      match h[a]? with
      | some (.list l) => (readItems (read n h) l).map .list
      | _ => none
    | .tag a =>
      match h[a]? with
      | some (.tag t) =>
        match h[t.attrs]?, h[t.weak]?, read n h t.content with
        | some (.attrs d), some (.weak c), some f => some (.tag t.cls t.name d c f)
        | _, _, _ => none
      | _ => none

/-- `h'` has the same objects as `h` at the addresses of `h`. -/
def SameOld (h h' : Heap) : Prop := ∀ i, i < h.length → h'[i]? = h[i]?

/-- `h'` has the same objects as `h1` at the addresses that are in `h1` but not in `h`. -/
def SameNew (h h1 h' : Heap) : Prop := ∀ i, h.length ≤ i → i < h1.length → h'[i]? = h1[i]?

/-- The tag at `b` is in the tree of the value `v`, at any depth. -/
inductive Inside (h : Heap) : Val → Addr → Prop
  | self (a : Addr) : Inside h (.tag a) a
  | content (a b : Addr) (t : TagObj) : h[a]? = some (.tag t) → Inside h t.content b → Inside h (.tag a) b
  | item (a b : Addr) (l : List Val) (v : Val) : h[a]? = some (.list l) → v ∈ l → Inside h v b → Inside h (.list a) b

mutual
/-- No list contains a list. -/
def flat : Full → Bool
  | .str _ => true
  | .tag _ _ _ _ f => flat f
  | .list l => flatItems l

/-- The items of a list are strings and tags, and no list contains a list. -/
def flatItems : List Full → Bool
  | [] => true
  | .list _ :: _ => false
  | f :: l => flat f && flatItems l
end

/-- The context of the tag at `a`. -/
def contextOf (h : Heap) (a : Addr) : Option (Option Nat) :=
  match h[a]? with
  | some (.tag t) => (match h[t.weak]? with | some (.weak c) => some c | _ => none)
  | _ => none

mutual
/-- `f` with every context replaced. -/
def withContext (ctx : Nat) : Full → Full
  | .str s => .str s
  | .list l => .list (withContexts ctx l)
  | .tag c n d _ f => .tag c n d (some ctx) (withContext ctx f)

def withContexts (ctx : Nat) : List Full → List Full
  | [] => []
  | f :: l => withContext ctx f :: withContexts ctx l
end

mutual
/-- The text of a content: strings as they are, tags according to `wrap`, lists as the text of their items in
order. -/
def text (wrap : Str → Str → Str) : Tree → Str
  | .str s => s
  | .tag c t => wrap c (text wrap t)
  | .list l => texts wrap l

def texts (wrap : Str → Str → Str) : List Tree → Str
  | [] => []
  | t :: l => text wrap t ++ texts wrap l
end

mutual
/-- No list contains a list. -/
def flatTree : Tree → Bool
  | .str _ => true
  | .tag _ t => flatTree t
  | .list l => flatTrees l

def flatTrees : List Tree → Bool
  | [] => true
  | .list _ :: _ => false
  | t :: l => flatTree t && flatTrees l
end

mutual
/-- The strings of a content, in reading order. -/
def strings : Tree → List Str
  | .str s => [s]
  | .tag _ t => strings t
  | .list l => allStrings l

def allStrings : List Tree → List Str
  | [] => []
  | t :: l => strings t ++ allStrings l
end

/-- The possible names of a class. -/
def namesOf (c : TagClass) : List Str := c.name :: c.aliases

/-- The tags that may be used in documents, each with the names it is used under. -/
def usable : List (String × List String) :=
  [("caption", ["caption"]), ("authors", ["authors", "author"]), ("titlepage", ["titlepage"]),
   ("marginfigure", ["marginfigure", "marginfig"]), ("figure", ["figure", "fig"]),
   ("fullfigure", ["fullfigure", "ffig", "fullfig"]), ("panel", ["panel"]),
   ("title", ["title", "h1"]), ("part", ["part"]), ("chapter", ["chapter", "h2"]), ("section", ["section", "h3"]),
   ("subsection", ["subsection", "h4"]), ("subsubsection", ["subsubsection", "h5"]), ("para", ["para", "h6"]),
   ("featurebox", ["featurebox"]), ("examplebox", ["examplebox"]), ("problembox", ["problembox"]),
   ("body", ["body"]), ("p", ["p"]), ("bold", ["bold", "b", "textbf", "strong"]),
   ("italics", ["italics", "i", "textit"]), ("sup", ["sup"]), ("sub", ["sub"]), ("supsub", ["supsub"]),
   ("symbol", ["symbol", "smb"]), ("verb", ["verb", "v", "pre", "verbatim"]), ("img", ["img"]),
   ("eq", ["eq", "term", "termb"]), ("asy", ["asy"]), ("ref", ["ref"]), ("next", ["next"]), ("prev", ["prev"]),
   ("srclink", ["srclink"]), ("txtlink", ["txtlink"]), ("texlink", ["texlink"]), ("pdflink", ["pdflink"]),
   ("epublink", ["epublink"]), ("cell", ["cell"]), ("headercell", ["headercell"]),
   ("delimdata", ["delimdata", "csv", "tsv"]), ("sidenote", ["sidenote", "marginnote"]),
   ("margintable", ["margintable", "margintbl"]), ("table", ["table", "tbl"]),
   ("fulltable", ["fulltable", "ftbl", "fulltbl"]), ("code", ["code"]), ("python", ["python"]), ("html", ["html"]),
   ("ruby", ["ruby"]), ("java", ["java"]), ("javascript", ["javascript"]), ("dm", ["dm"]), ("list", ["list"]),
   ("orderedlist", ["orderedlist", "outline"]), ("toc", ["toc"])]

end Verif.Tags
