import Verif.Model.Paths
import Verif.Model.Utils

/-!
# Model of titles, authors and the labels of documents

Models `/repo/src/disseminate/tags/preamble.py:11-63`, `/repo/src/disseminate/document/document.py:115-145`, and
`/repo/src/disseminate/document/receivers/process_document_label.py`. `slug` stands for `slugify`, an external package, `sp` for the
class of spaces.
-/

namespace Verif.Preamble

open Verif Verif.Paths
open Verif.Utils (strToList)

/-! ### Authors -/

/-- An item of the content of a tag: text or a tag. -/
inductive Item
  | text (s : Str)
  | tag
deriving Repr, DecidableEq

/-- The content of a tag or an entry of a context: nothing, text, a list, or something else (a tag, a dict). -/
inductive Content
  | none
  | text (s : Str)
  | list (l : List Item)
  | other
deriving Repr, DecidableEq

/-- The content of an authors tag: its own, or the entry `author` or `authors` of the context (`preamble.py:16-30`). -/
def authors (sp : Char → Bool) (content : Content) (author authors : Option Content) : Content :=
  let blank := match content with
    | .none => true
    | .text s => strip sp s = []
    | _ => false
  let content := if blank then
      match author with
      | some c => c
      | none => authors.getD (.text [])
    else content
  match content with
  | .text s => .list ((strToList sp s).map .text)
  | c => c

/-- The texts of items; `none` for the `TypeError` of `join` with a tag. -/
def texts : List Item → Option (List Str)
  | [] => some []
  | .text s :: l => (texts l).map (s :: ·)
  | .tag :: _ => none

/-- `author_string` (`preamble.py:32-54`) for the content that the constructor leaves; `none` if the result is no text. -/
def authorString (sp : Char → Bool) (content : Content) : Option Str :=
  let items := match content with
    | .text s => some ((strToList sp s).map .text)
    | .list l => some l
    | _ => none
  match items with
  | none => some []
  | some l =>
    match texts l with
    | none => none
    | some l =>
      if l.length = 0 then some []
      else if l.length = 1 then l.head?
      else
        let lastTwo := l.drop (l.length - 2)
        let others := l.take (l.length - 2)
        if l.length = 2 then some (join ", ".toList others ++ join " and ".toList lastTwo)
        else some (join ", ".toList others ++ ", ".toList ++ join " and ".toList lastTwo)

/-! ### Titles -/

/-- An entry of a context for a title: text, or a tag with its text. -/
inductive Title
  | text (s : Str)
  | tag (default : Str)
deriving Repr, DecidableEq

/-- The text of a title (`document.py:127-129`, `:140-142`). -/
def Title.str (sp : Char → Bool) : Title → Str
  | .text s => s
  | .tag t => strip sp t

/-- A document: the subpath of its source file, the entries `title` and `short` of its own header, and its subdocuments. -/
inductive Doc
  | mk (subpath : Path) (title short : Option Title) (subs : List Doc)

/-- `Document.title` (`document.py:120-131`), for the entry `title` of the context. A file has a name. -/
def title (sp : Char → Bool) (entry : Option Title) (subpath : Path) : Str :=
  match entry with
  | some t => t.str sp
  | none => toStr (match withSuffix subpath [] with
    | .ok p => p
    | .error _ => subpath)

/-- `Document.short` (`document.py:133-145`). -/
def short (sp : Char → Bool) (entry short : Option Title) (subpath : Path) : Str :=
  match short with
  | some t => t.str sp
  | none => title sp entry subpath

/-- A label of a document. -/
structure Label where
  docId : Str
  id : Str
  kind : List Str
  title : Str
deriving Repr, DecidableEq

/-- `process_document_label` (`process_document_label.py:9-29`). -/
def label (sp : Char → Bool) (slug : Str → Str) (entry short' : Option Title) (level : Nat) (subpath : Path) : Label :=
  ⟨toStr subpath, "doc:".toList ++ slug (toStr subpath), ["document".toList, "document-level-".toList ++ (toString level).toList],
    short sp entry short' subpath⟩

mutual
/-- The labels that loading a document and its subdocuments adds (`document.py:371-384`, `document_context.py:37-83`, `:152-154`): the
entries `title` and `level` are inherited from the context of the parent, `short` is not. -/
def load (sp : Char → Bool) (slug : Str → Str) (inherited : Option Title) (level : Nat) : Doc → List Label
  | .mk subpath title short subs =>
    let entry := title.or inherited
    label sp slug entry short (level + 1) subpath :: loadAll sp slug entry (level + 1) subs

/-- All subdocuments, in order. -/
def loadAll (sp : Char → Bool) (slug : Str → Str) (inherited : Option Title) (level : Nat) : List Doc → List Label
  | [] => []
  | d :: ds => load sp slug inherited level d ++ loadAll sp slug inherited level ds
end

/-- Loading a project. -/
def project (sp : Char → Bool) (slug : Str → Str) (root : Doc) : List Label := load sp slug none 0 root

end Verif.Preamble
