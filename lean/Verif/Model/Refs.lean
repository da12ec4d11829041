import Verif.Model.Page
import Verif.Model.Composite
import Verif.Model.LabelText
import Verif.Model.Links
import Verif.Model.Navigation

/-!
# Headings, references, tables of contents and links to the documents around

Model of the rendering of tags that show labels: `LabelTag` (`src/disseminate/tags/label.py`), `Heading`
(`src/disseminate/tags/headings.py`), `Ref` (`src/disseminate/tags/ref.py`), `Toc` (`src/disseminate/tags/toc.py`) and `Next` and
`Prev` (`src/disseminate/tags/navigation.py`).

The texts of labels are those of `Verif.Model.LabelText`, the links those of `Verif.Model.Links`, and the tags in a text
are made as in `Verif.Model.Page`. All exceptions of these are one error here, `RErr.other`.
-/

namespace Verif.Refs

open Verif Verif.Attrs Verif.Formats Verif.Render Verif.Labels

/-- The document that the tags are in: the classes of characters, the objects of macros, the label manager with its formats,
and what matters for links. -/
structure Doc where
  ch : Page.Chars
  more : LabelText.Obj → Str → Option LabelText.Obj
  repr : Label → Str
  fuel : Nat
  m : Manager
  env : Labels.Env
  sep : Str
  fmts : Option (Dict Str Str)
  cwd : List Str
  docId : Option Str
  ctx : Links.Ctx
  docs : Dict Str Links.Files

/-- An error of another part of the model. -/
def other {ε α : Type} (x : Except ε α) : Except RErr α := x.mapError fun _ => .other

/-- `Tag(name=…, content=text, attributes='', context=context).content` (`tags/label.py:284-285`, `:308-309`,
`tags/ref.py:280-281`, `:352-353`): the tags of a text, with their typography. The names `label` and `ref` have no paragraphs
(`settings.py:117`). -/
def tagContent (ch : Page.Chars) (text : Str) : Except RErr Node :=
  (other (Page.makeItems ch (text.length + 1) text)).map fun items =>
    Page.toNode ch (Page.setVal (Typography.typo ch.sp ch.word) (Page.proc ch.lower) (Parser.finish items))

/-- `label_manager.get_label(id=…)`. -/
def Doc.find (w : Doc) (id : Str) : Option Label := (w.m.getLabel w.env w.sep id).2

/-- `label_manager.format_string(id, *keys, target=…)`. -/
def Doc.text (w : Doc) (id : Str) (keys : List Str) (target : Str) : Except RErr Str :=
  other (LabelText.formatString ⟨w.ch.word, w.ch.sp, w.more, w.repr, w.fuel⟩ w.m w.env w.sep w.fmts id keys (some target))

/-! ### Labels and headings -/

/-- `LabelTag.html_fmt` (`tags/label.py:293-320`). The attributes of the tag are those of `filter('id', 'class', 'short')`
(`:174`), which is the attribute `id` for a target `class`, and that is removed if it is there (`:253-257`): there are none. -/
def labelHtml (w : Doc) (id : Str) : Except RErr Html :=
  (w.text id [] ".html".toList).bind fun s => (tagContent w.ch s).bind
    (Composite.wrapHtml w.ch.sp w.ch.lower "span".toList [("class".toList, .str "label".toList)])

/-- `LabelTag.tex_fmt` (`tags/label.py:273-291`). -/
def labelTex (w : Doc) (id : Str) (math : Bool) : Except RErr Str :=
  (w.text id [] ".tex".toList).bind fun s => (tagContent w.ch s).bind (texFmt w.ch.sp math)

/-- The class attribute `html_name` of headings (`tags/headings.py:127-174`). -/
def headingName : LabelText.Level → Str
  | .title | .part => "h1".toList
  | .chapter => "h2".toList
  | .section => "h3".toList
  | .subsection => "h4".toList
  | .subsubsection => "h5".toList

/-- `Heading.html_fmt` (`tags/headings.py:113-124`) for a heading with a label. The identifier of the label is an attribute
(`tags/label.py:171-172`). -/
def headingHtml (w : Doc) (level : LabelText.Level) (d : ADict) (id : Str) : Except RErr Html :=
  (labelHtml w id).bind fun l => element (headingName level) (d.set "id".toList (.str id)) [.elem (some l)]

/-- `Heading.tex_fmt` (`tags/headings.py:79-111`) for a heading with a label. -/
def headingTex (w : Doc) (level : LabelText.Level) (d : ADict) (id : Str) (math : Bool) : Except RErr Str :=
  (labelTex w id math).bind fun t =>
    other (LabelText.headingTex ⟨w.ch.word, w.ch.sp, w.more, w.repr, w.fuel⟩ w.m w.env w.sep level
      (d.set "id".toList (.str id)) t id)

/-- A heading with a label, as a node of a tree. -/
def headingNode (w : Doc) (level : LabelText.Level) (d : ADict) (id : Str) (texts : Bool → List Str) : Node :=
  .other texts (headingTex w level d id) (headingHtml w level d id)

/-! ### References -/

/-- `self.label_id` of a reference with a text as its content (`tags/ref.py:70-76`): the content of the tag, after
typography, without the spaces around it. A content with tags is not a string: an `AttributeError`. -/
def refId (ch : Page.Chars) (text : Str) : Except RErr Str :=
  match tagContent ch text with
  | .ok (.str s) => .ok (Verif.strip ch.sp s)
  | .ok _ => .error .type
  | .error e => .error e

/-- The element of a reference (`tags/ref.py:357-371`). An attribute that is `None` counts as given and is not set
(`formats/xhtml.py:96-101`, `:161-165`). -/
def linkElement (d : ADict) (url : Option Str) (parts : List (Part (Option Html))) : Except RErr Html :=
  let d := (d.set "class".toList (.str "ref".toList)).set "href".toList (.str (url.getD []))
  (element "a".toList d parts).map fun h => match url, h with
    | none, .elem e a kids => .elem e (a.filter fun x => x.1 ≠ "href".toList) kids
    | _, h => h

/-- `Ref.html_fmt` (`tags/ref.py:305-373`) for a label that was found. `method` is the extension of the target. -/
def refHtml (w : Doc) (d : ADict) (label : Label) (method : Str) : Except RErr Html :=
  match label.kind with
  | none => .error .type
  | some kind =>
    (w.text label.id ("ref".toList :: kind) ".html".toList).bind fun s =>
    (tagContent w.ch s).bind fun c =>
    (htmlFmt w.ch.sp w.ch.lower c).bind fun parts =>
    (other (Links.refUrl w.cwd w.docId w.ctx w.docs label method label.content)).bind fun url =>
    linkElement d url parts

/-- The formatted content of a reference in LaTeX (`tags/ref.py:282-283`): not a string if it has more than one item. -/
def refContentTex (sp : Char → Bool) : Node → Except RErr (Option Str)
  | .list l => (texItems sp false l).map fun
    | [.str s] => some s
    | _ => none
  | n => (texFmt sp false n).map some

/-- `tex_cmd` for a content that may not be a string (`formats/tex.py:15-89`). -/
def cmdOpt (c : Str) (d : ADict) (content : Option Str) : Except RErr Str :=
  (texCmd trackedTargets (posTable texCmdArguments) (nameTable texCmdOptionals) c d content).mapError .tex

/-- `Ref.tex_fmt` (`tags/ref.py:236-303`) for a label that was found: a link to the pdf. A list of strings, without a link,
cannot be joined with other strings. -/
def refTex (w : Doc) (label : Label) : Except RErr Str :=
  match label.kind with
  | none => .error .type
  | some kind =>
    (w.text label.id ("ref".toList :: kind) ".tex".toList).bind fun s =>
    (tagContent w.ch s).bind fun c =>
    (refContentTex w.ch.sp c).bind fun content =>
    (other (Links.refUrl w.cwd w.docId w.ctx w.docs label ".pdf".toList label.content)).bind fun url =>
    match url with
    | some (c :: u) =>
      cmdOpt "href".toList (load trackedTargets w.ch.posType w.ch.word w.ch.sp (c :: u ++ ".tex".toList)) content
    | _ => match content with
      | some s => .ok s
      | none => .error .type

/-- A tag `@ref` with a text, in html. -/
def refTagHtml (w : Doc) (d : ADict) (text method : Str) : Except RErr Html :=
  (refId w.ch text).bind fun id => match w.find id with
    | none => .error .other
    | some l => refHtml w d l method

/-- A tag `@ref` with a text, in LaTeX. -/
def refTagTex (w : Doc) (text : Str) : Except RErr Str :=
  (refId w.ch text).bind fun id => match w.find id with
    | none => .error .other
    | some l => refTex w l

/-- A reference, as a node of a tree. -/
def refNode (w : Doc) (d : ADict) (text : Str) (texts : Bool → List Str) : Node :=
  .other texts (fun _ => refTagTex w text) (refTagHtml w d text "html".toList)

/-! ### Tables of contents -/

/-- The entities that XML knows. -/
def xmlEntities : Dict Str Str :=
  [("lt".toList, "<".toList), ("gt".toList, ">".toList), ("amp".toList, "&".toList), ("quot".toList, "\"".toList),
   ("apos".toList, "'".toList)]

/-- The elements that html writes without an end. -/
def voidElements : List Str :=
  ["area".toList, "base".toList, "br".toList, "col".toList, "embed".toList, "frame".toList, "hr".toList, "img".toList,
   "input".toList, "link".toList, "meta".toList, "param".toList]

mutual
/-- `etree.fromstring` (`formats/xhtml.py:131-133`) of the text of an element (`:168-171`): other entities are not defined,
and in html void elements are not closed. Simplifications: spaces and line ends that are added between elements, and
entities by number, are left out. -/
def reread (html : Bool) : Html → Except RErr Html
  | .text s => .ok (.text s)
  | .entity e => match xmlEntities.get? e with
    | some s => .ok (.text s)
    | none => .error .other
  | .elem e a kids => if html && voidElements.contains e then .error .other else (rereads html kids).map (.elem e a)
/-- The same for nodes one after the other. -/
def rereads (html : Bool) : List Html → Except RErr (List Html)
  | [] => .ok []
  | h :: l => (reread html h).bind fun h' => (rereads html l).map (h' :: ·)
end

/-- `TocRef.html_fmt` (`tags/toc.py:36-46`) with the label of `labels_by_id` (`:208-220`). The label is looked up with the
manager too (`tags/ref.py:339`). The list item is of level 1, so it is turned into text, and parsed again in the list. -/
def tocItem (w : Doc) (d : ADict) (labels : List Label) (method id : Str) (level : Nat) : Except RErr Html :=
  (refId w.ch id).bind fun i => match w.find i with
    | none => .error .other
    | some _ =>
      let byId : Dict Str Label := Dict.update [] (labels.map fun l => (l.id, l))
      (match byId.get? i with
        | some l => (refHtml w d l method).map fun a => [Part.elem (some a)]
        | none => .ok [Part.text []]).bind
      fun ps => (element "li".toList [("class".toList, .str ("toc-level-".toList ++ Nat.toDigits 10 level))] ps).bind
        (reread (method = "html".toList))

/-- The loop of `Toc.html_fmt` (`tags/toc.py:211-221`). -/
def tocItems (w : Doc) (d : ADict) (labels : List Label) (method : Str) : List (Str × Nat) → Except RErr (List (Nat × Html))
  | [] => .ok []
  | e :: es => (tocItem w d labels method e.1 e.2).bind fun h => (tocItems w d labels method es).map ((e.2, h) :: ·)

mutual
/-- The element for an item, or for an inner list, of `xhtml_list` (`formats/xhtml.py:282-308`). -/
def listElem (name : Str) : ListTag.Node Html → Except RErr Html
  | .li h => .ok h
  | .sub l => (listElems name l).bind fun ps => element name [] ps
/-- The elements of a list. -/
def listElems (name : Str) : List (ListTag.Node Html) → Except RErr (List (Part (Option Html)))
  | [] => .ok []
  | n :: l => (listElem name n).bind fun h => (listElems name l).map (Part.elem (some h) :: ·)
end

/-- `Toc.html_fmt` (`tags/toc.py:198-224`) for the labels that it lists; `d` are the attributes of the tag. -/
def tocHtml (w : Doc) (d : ADict) (labels : List Label) (method : Str) : Except RErr Html :=
  match Navigation.referenceTags labels with
  | none => .error .type
  | some es =>
    (tocItems w d labels method es).bind fun items =>
    (listElems "ol".toList (ListTag.renderList items)).bind
      (element "ol".toList [("class".toList, .str "toc".toList)])

/-- `TocRef.tex_fmt` (`tags/toc.py:28-34`) for all entries. -/
def tocLines (w : Doc) : List (Str × Nat) → Except RErr Str
  | [] => .ok []
  | e :: es => (refTagTex w e.1).bind fun t => (tocLines w es).map fun r =>
      List.replicate e.2 '§' ++ ' ' :: t ++ '\n' :: r

/-- `Toc.tex_fmt` (`tags/toc.py:192-196`). The text before the entries is inserted character by character, and joined
again. -/
def tocTex (w : Doc) (labels : List Label) : Except RErr Str :=
  match Navigation.referenceTags labels with
  | none => .error .type
  | some es => (tocLines w es).bind fun t =>
      Render.env "easylist".toList [("booktoc".toList, .pos .string)] ("\\ListProperties(Hide=2)\n".toList ++ t)

/-! ### The next and the previous document -/

/-- `Next.html_fmt` and `Prev.html_fmt` (`tags/navigation.py:120-131`, `:176-187`): `entry` is the label of the context, for
the key `next_html` or `prev_html`. Without an entry there is an empty text. -/
def aroundHtml (w : Doc) (d : ADict) (entry : Option Label) (method : Str) : Except RErr (Part (Option Html)) :=
  match entry with
  | none => .ok (.text [])
  | some l => (refHtml w d l method).map fun h => .elem (some h)

/-- `Next.tex_fmt` and `Prev.tex_fmt` (`tags/navigation.py:107-118`, `:163-174`) in another tag: they give an element of html
(`formats/xhtml.py:172-173`), which cannot be joined with strings. -/
def aroundTex (w : Doc) (d : ADict) (entry : Option Label) : Except RErr Str :=
  match entry with
  | none => .ok []
  | some l => (refHtml w d l "html".toList).bind fun _ => .error .type

end Verif.Refs
