import Verif.Model.Page
import Verif.Spec.Parser
import Verif.Spec.Render

/-!
# Specification of the body of a document

What the text of a document says: its texts, each with the names of the tags around it; and where the characters of an
element tree are. Of the model only the list of the names of tags that are not modelled is used.
-/

namespace Verif.Page.Spec

open Verif Verif.Parser.Spec Verif.Render

/-- The names of the tags whose text is taken as it is. -/
def verbatims : List String := ["verb", "v", "pre", "verbatim"]

/-- A tag whose text is taken as it is. Names are compared in lower case. -/
def verbatim (lower : Str → Str) (name : Str) : Bool := verbatims.any fun s => s.toList = lower name

/-- A tag whose content is put in paragraphs. -/
def Boxed (lower : Str → Str) (name : Str) : Prop :=
  name = "body".toList ∨ lower name ∈ ["featurebox".toList, "examplebox".toList, "problembox".toList]

/-- A symbol. -/
def Symbol (lower : Str → Str) (name : Str) : Prop := lower name ∈ ["symbol".toList, "smb".toList]

/-- `Reads word sp lower s ls`: the text `s` says the texts of `ls`, each with the names of the tags around it, from the
outside to the inside. The texts of verbatim tags and of symbols have no tags in them, and the tags whose content is put
in paragraphs are not blank. -/
inductive Reads (word sp : Char → Bool) (lower : Str → Str) : Str → List (List Str × Str) → Prop
  | text (s) : NoTag s → Reads word sp lower s [([], s)]
  | tag (pre name attrs after body rest bs rs) : NoTag pre → IsHead word name attrs ('{' :: after) →
      Closes after body rest → lower name ∉ special → (verbatim lower name = true ∨ Symbol lower name → NoTag body) →
      (Boxed lower name → ∃ c ∈ body, sp c = false) →
      Reads word sp lower body bs → Reads word sp lower rest rs →
      Reads word sp lower (pre ++ '@' :: name ++ attrs.getD [] ++ '{' :: after)
        (([], pre) :: bs.map (fun l => (name :: l.1, l.2)) ++ rs)
  | bare (pre name attrs rest rs) : NoTag pre → IsHead word name attrs rest → (∀ r, rest ≠ '{' :: r) →
      lower name ∉ special → ¬ Boxed lower name → Reads word sp lower rest rs →
      Reads word sp lower (pre ++ '@' :: name ++ attrs.getD [] ++ rest) (([], pre) :: rs)

/-- A text that is taken as it is: the innermost tag around it is verbatim. -/
def AsIs (lower : Str → Str) (names : List Str) : Bool := names.getLast?.any (verbatim lower)

/-- The elements of tags, by the names of the tags. -/
def elements : List (String × String) :=
  [("body", "div"), ("bold", "strong"), ("b", "strong"), ("textbf", "strong"), ("strong", "strong"),
   ("italics", "i"), ("i", "i"), ("textit", "i"), ("sup", "sup"), ("sub", "sub"),
   ("verb", "code"), ("v", "code"), ("pre", "code"), ("verbatim", "code"),
   ("sidenote", "sidenote"), ("marginnote", "sidenote"),
   ("featurebox", "div"), ("examplebox", "div"), ("problembox", "div"),
   ("marginfigure", "figure"), ("marginfig", "figure"), ("figure", "figure"), ("fig", "figure"),
   ("fullfigure", "figure"), ("ffig", "figure"), ("fullfig", "figure"),
   ("para", "paragraph-heading"), ("h6", "paragraph-heading")]

/-- The element of a tag: by the table, or named as the tag; `span` if that is not an element that is allowed. A symbol
has no element, and paragraphs are left out. -/
def elementOf (lower : Str → Str) (name : Str) : List Str :=
  if lower name ∈ ["p".toList, "symbol".toList, "smb".toList] then []
  else
    let e := ((elements.find? fun x => x.1.toList = lower name).map fun x => x.2.toList).getD (lower name)
    [if e ∈ Formats.xhtmlArguments.map (·.1) ∨ e ∈ Formats.xhtmlOptionals.map (·.1) then e else "span".toList]

/-- The elements of the tags around a text. -/
def around (lower : Str → Str) (names : List Str) : List Str := names.flatMap (elementOf lower)

/-- The characters of texts that are to be kept, each with the elements of the tags around it; all is in the body. -/
def placed (lower : Str → Str) (keep : Char → Bool) (ls : List (List Str × Str)) : List (List Str × Char) :=
  ls.flatMap fun l => (l.2.filter keep).map fun c => (around lower ("body".toList :: l.1), c)

/-- The texts after `f`, apart from those that are taken as they are. -/
def typeset (lower : Str → Str) (f : Str → Str) (ls : List (List Str × Str)) : List (List Str × Str) :=
  ls.map fun l => (l.1, if AsIs lower l.1 then l.2 else f l.2)

/-- The characters of texts that are to be kept. -/
def kept (keep : Char → Bool) (ls : List (List Str × Str)) : Str := ls.flatMap fun l => l.2.filter keep

mutual
/-- The characters of an element tree, each with the names of the elements around it, apart from paragraphs. -/
def marks (path : List Str) : Html → List (List Str × Char)
  | .text s => s.map fun c => (path, c)
  | .entity s => s.map fun c => (path, c)
  | .elem e _ kids => marksAll (if e = "p".toList then path else path ++ [e]) kids
/-- The same for nodes one after the other. -/
def marksAll (path : List Str) : List Html → List (List Str × Char)
  | [] => []
  | h :: l => marks path h ++ marksAll path l
end

end Verif.Page.Spec
