import Verif.Model.Refs
import Verif.Spec.Page
import Verif.Spec.ListTag
import Verif.Spec.Navigation

/-!
# Specification of headings, references and tables of contents

Of the model only the document and the two functions of the API are used that say what text a label has
(`format_string`, C55) and what the url of a reference is (`Ref.url`, C54).
-/

namespace Verif.Refs.Spec

open Verif Verif.Render Verif.Labels Verif.Page.Spec

/-- The characters of texts that are to be kept, each with the elements around it: `es`, and those of the tags around the
text. -/
def placedIn (lower : Str → Str) (keep : Char → Bool) (es : List Str) (ls : List (List Str × Str)) : List (List Str × Char) :=
  ls.flatMap fun l => (l.2.filter keep).map fun c => (es ++ around lower l.1, c)

/-- An element shows a text: its characters that are not spaces are those of what the text says, typeset, and in the
elements `es` and those of the tags. -/
def ShowsIn (ch : Page.Chars) (es : List Str) (s : Str) (h : Html) : Prop :=
  ∀ ls, Reads ch.word ch.sp ch.lower s ls →
    (marks [] h).filter (fun x => !ch.sp x.2) =
      placedIn ch.lower (fun c => !ch.sp c) es (typeset ch.lower (Typography.typo ch.sp ch.word) ls)

/-- LaTeX has a text: it has texts, whole and in order, whose characters that are not spaces are those of what the text says,
typeset. Verbatim texts that LaTeX has no delimiter for are left out. -/
def Writes (ch : Page.Chars) (s out : Str) : Prop :=
  ∀ ls, Reads ch.word ch.sp ch.lower s ls →
    (∀ l ∈ ls, ∀ n, l.1.getLast? = some n → verbatim ch.lower n = true → n ≠ "verbatim".toList →
      '|' ∉ l.2 ∨ '!' ∉ l.2 ∨ '^' ∉ l.2) →
    ∃ us, Render.Spec.InOrder us out ∧
      us.flatten.filter (fun c => !ch.sp c) = kept (fun c => !ch.sp c) (typeset ch.lower (Typography.typo ch.sp ch.word) ls)

/-- A text without tags, or one tag. -/
inductive OneItem (word : Char → Bool) : Str → Prop
  | text (s) : Parser.Spec.NoTag s → OneItem word s
  | tag (name attrs after body) : Parser.Spec.IsHead word name attrs ('{' :: after) → Parser.Spec.Closes after body [] →
      OneItem word ('@' :: name ++ attrs.getD [] ++ '{' :: after)

/-- The elements of headings. -/
def headingElements : List (LabelText.Level × String) :=
  [(.title, "h1"), (.part, "h1"), (.chapter, "h2"), (.section, "h3"), (.subsection, "h4"), (.subsubsection, "h5")]

/-- The text of a label for a target, with the format of the label (`keys` empty) or one of another kind. -/
def TextOf (w : Doc) (id : Str) (keys : List Str) (target : String) (s : Str) : Prop :=
  LabelText.formatString ⟨w.ch.word, w.ch.sp, w.more, w.repr, w.fuel⟩ w.m w.env w.sep w.fmts id keys (some target.toList) = .ok s

/-- The url of a reference to a label: with the anchor if the label is not a document. -/
def UrlOf (w : Doc) (l : Label) (target : Str) (url : Option Str) : Prop :=
  Links.refUrl w.cwd w.docId w.ctx w.docs l target l.content = .ok url

/-- `a` is a link to a label: an element `a` of the class `ref` that leads to the url of the label, and shows the text that
references to the label have. -/
def LinkTo (w : Doc) (method : Str) (l : Label) (a : Html) : Prop :=
  ∃ kind s url attrs kids, l.kind = some kind ∧ TextOf w l.id ("ref".toList :: kind) ".html" s ∧ UrlOf w l method url ∧
    a = .elem "a".toList attrs kids ∧ attrs.get? "href".toList = url ∧ attrs.get? "class".toList = some "ref".toList ∧
    ShowsIn w.ch ["a".toList] s a

/-- A text names a label: the text is the name with spaces around it, has no tags, and none of the characters that typography
changes. -/
def Names (sp : Char → Bool) (t id : Str) : Prop :=
  Parser.Spec.NoTag t ∧ (∀ c ∈ t, c ∉ "–—'\"".toList) ∧ ¬ "--".toList <:+: t ∧
    ∃ a b, t = a ++ id ++ b ∧ (∀ c ∈ a ++ b, sp c = true) ∧ (∀ c, id.head? = some c → sp c = false) ∧
      ∀ c, id.getLast? = some c → sp c = false

mutual
/-- An XML reader makes the second of the text of the first. It knows five entities, and wants all elements closed. -/
inductive ReadBack (html : Bool) : Html → Html → Prop
  | text (s) : ReadBack html (.text s) (.text s)
  | entity (e s : String) : (e, s) ∈ [("lt", "<"), ("gt", ">"), ("amp", "&"), ("quot", "\""), ("apos", "'")] →
      ReadBack html (.entity e.toList) (.text s.toList)
  | elem (e a kids kids') : (html = true → ∀ v ∈ ["area", "base", "br", "col", "embed", "frame", "hr", "img", "input", "link",
      "meta", "param"], e ≠ String.toList v) → ReadBacks html kids kids' → ReadBack html (.elem e a kids) (.elem e a kids')
/-- The same for nodes one after the other. -/
inductive ReadBacks (html : Bool) : List Html → List Html → Prop
  | nil : ReadBacks html [] []
  | cons (h h' l l') : ReadBack html h h' → ReadBacks html l l' → ReadBacks html (h :: l) (h' :: l')
end

/-- The entries of a table of contents: for each label, with its level, a list item with a link to it. -/
inductive Entries (w : Doc) (method : Str) : List Label → List Nat → List Html → Prop
  | nil : Entries w method [] [] []
  | cons (l n a h ls ns hs) : LinkTo w method l a →
      ReadBack (method = "html".toList) (.elem "li".toList [("class".toList, "toc-level-".toList ++ (toString n).toList)] [a]) h →
      Entries w method ls ns hs → Entries w method (l :: ls) (n :: ns) (h :: hs)

/-- The entries of a table of contents in LaTeX: a line for each, with as many marks as its level. -/
inductive Lines : List (Nat × Str) → Str → Prop
  | nil : Lines [] []
  | cons (n t l x) : Lines l x → Lines ((n, t) :: l) (List.replicate n '§' ++ " ".toList ++ t ++ "\n".toList ++ x)

mutual
/-- A nested list as elements. -/
def nested : ListTag.Node Html → Html
  | .li h => h
  | .sub l => .elem "ol".toList [] (nesteds l)
/-- The same for nodes one after the other. -/
def nesteds : List (ListTag.Node Html) → List Html
  | [] => []
  | n :: l => nested n :: nesteds l
end

end Verif.Refs.Spec
