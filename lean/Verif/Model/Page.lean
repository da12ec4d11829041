import Verif.Model.Parser
import Verif.Model.Paragraphs
import Verif.Model.Typography
import Verif.Model.Render

/-!
# The body of a document, from its text to a tree of tags

Models how `TagFactory.tag` (`src/disseminate/tags/tag.py:361-393`) and `Tag.__init__` (`:96-103`) make a tag from a
text, with the receivers of `tag_created` in their order: `process_content` (`tags/receivers/content.py:18-24`),
`process_typography` (`tags/receivers/typography.py`) and `process_paragraphs` (`tags/receivers/paragraphs.py:9-18`); and
how `process_tags` (`document/receivers/process_tags.py:9-41`) makes the tag `body` from the text of a document.

Not modelled here: the receiver for hashes, which sets an attribute that nothing here reads; the receiver for macros, so
that the text is one whose macros have been replaced (C25: none are left); the inactive tags of the context (there
are none), and a set `process_paragraphs` in the context that is not the one of the settings. Tags whose class has a
constructor of its own or needs more than its content (`special`) are an error of this model.
-/

namespace Verif.Page

open Verif Verif.Parser Verif.Render

/-- What depends on Unicode: the class `\w`, the class `\s` (also the spaces of `str.strip`), `str.lower`, and the type of
a positional attribute. -/
structure Chars where
  word : Char → Bool
  sp : Char → Bool
  lower : Str → Str
  posType : Str → Attrs.PType

/-- The classes by their names and aliases (`tags/tag.py:412-431`; `tags/text.py`, `tags/notes.py`, `tags/featurebox.py`,
`tags/figs.py`, `tags/headings.py:177-185`). -/
def kinds : Dict Str Kind :=
  [("body".toList, .body), ("p".toList, .p),
   ("bold".toList, .bold), ("b".toList, .bold), ("textbf".toList, .bold), ("strong".toList, .bold),
   ("italics".toList, .italics), ("i".toList, .italics), ("textit".toList, .italics),
   ("sup".toList, .sup), ("sub".toList, .sub), ("symbol".toList, .symbol), ("smb".toList, .symbol),
   ("verb".toList, .verb), ("v".toList, .verb), ("pre".toList, .verb), ("verbatim".toList, .verb),
   ("sidenote".toList, .sidenote), ("marginnote".toList, .sidenote),
   ("featurebox".toList, .featurebox), ("examplebox".toList, .examplebox), ("problembox".toList, .problembox),
   ("marginfigure".toList, .marginfigure), ("marginfig".toList, .marginfigure),
   ("figure".toList, .figure), ("fig".toList, .figure),
   ("fullfigure".toList, .fullfigure), ("ffig".toList, .fullfigure), ("fullfig".toList, .fullfigure),
   ("para".toList, .para), ("h6".toList, .para)]

/-- The names of the other active classes. -/
def special : List Str :=
  ["caption".toList, "authors".toList, "author".toList, "titlepage".toList, "panel".toList, "title".toList, "h1".toList,
   "part".toList, "chapter".toList, "h2".toList, "section".toList, "h3".toList, "subsection".toList, "h4".toList,
   "subsubsection".toList, "h5".toList, "supsub".toList, "img".toList, "eq".toList, "term".toList, "termb".toList,
   "asy".toList, "ref".toList, "next".toList, "prev".toList, "srclink".toList, "txtlink".toList, "texlink".toList,
   "pdflink".toList, "epublink".toList, "cell".toList, "headercell".toList, "delimdata".toList, "csv".toList, "tsv".toList,
   "margintable".toList, "margintbl".toList, "table".toList, "tbl".toList, "fulltable".toList, "ftbl".toList,
   "fulltbl".toList, "code".toList, "python".toList, "html".toList, "ruby".toList, "java".toList, "javascript".toList,
   "dm".toList, "list".toList, "orderedlist".toList, "outline".toList, "toc".toList]

/-- `TagFactory.tag_class` (`tags/tag.py:395-410`): the class for a name, `none` for one that is not modelled here. -/
def kindOf (lower : Str → Str) (name : Str) : Option Kind :=
  match kinds.get? (lower name) with
  | some k => some k
  | none => if special.contains (lower name) then none else some .generic

/-- `process_content` is False (`tags/text.py:300`). -/
def raw (lower : Str → Str) (name : Str) : Bool := kindOf lower name = some .verb

/-- `process_typography` (`tags/tag.py:92`, `tags/text.py:301`). -/
def proc (lower : Str → Str) (name : Str) : Bool := kindOf lower name ≠ some .verb

/-- `include_paragraphs` (`tags/tag.py:93`, `tags/text.py:59`, `:303`, `tags/featurebox.py:21`, `tags/figs.py:24`,
`tags/headings.py:184`). -/
def incl (lower : Str → Str) (name : Str) : Bool :=
  !([some .p, some .verb, some .featurebox, some .examplebox, some .problembox, some .marginfigure, some .figure,
    some .fullfigure, some .para] : List (Option Kind)).contains (kindOf lower name)

/-- `tag.name in tag.context.get('process_paragraphs', [])` (`tags/receivers/paragraphs.py:12`) with the default of
`settings.py:117`. The name of a feature box of any kind is `featurebox` (`tags/featurebox.py:27-28`); here the name of
the class is kept, which is used for nothing else. -/
def paragraphed (lower : Str → Str) (name : Str) : Bool :=
  name = "body".toList ||
    ([some .featurebox, some .examplebox, some .problembox] : List (Option Kind)).contains (kindOf lower name)

/-- The errors: those of the parser, and tags that are not modelled. -/
inductive PErr
  | tag (e : TagErr)
  | special (name : Str)
deriving Repr, DecidableEq

mutual
/-- `process_typography` (`tags/receivers/typography.py:9-70`), with the new value instead of a change. -/
def setVal (set : Str → Str) (proc : Str → Bool) : Val → Val
  | .str s => .str (set s)
  | .tag n a b c => if proc n then .tag n a b (setVal set proc c) else .tag n a b c
  | .list l => .list (setVals set proc l)

/-- The loop over the elements of a list (`typography.py:63-68`). -/
def setVals (set : Str → Str) (proc : Str → Bool) : List Val → List Val
  | [] => []
  | v :: l => setVal set proc v :: setVals set proc l
end

mutual
/-- `parse_tags(content, level)` for any content (`content.py:53-166`), as `Parser.reparse`, with `mk` for strings. -/
def again (mk : Str → Except PErr Val) : Nat → Val → Except PErr Val
  | level, .str s => if level ≥ 30 then .error (.tag .maxDepth) else mk s
  | level, .tag n a b (.list l) =>
    if level ≥ 30 then .error (.tag .maxDepth) else (againAll mk (level + 1) l).map fun l' => .tag n a b (.list l')
  | level, .tag n a b c =>
    if level ≥ 30 then .error (.tag .maxDepth) else (again mk (level + 1) c).map (.tag n a b)
  | level, .list l =>
    if level ≥ 30 then .error (.tag .maxDepth) else (againAll mk (level + 1) l).map .list

/-- `list(map(parse, content))` (`content.py:69`, `content.py:72`). -/
def againAll (mk : Str → Except PErr Val) : Nat → List Val → Except PErr (List Val)
  | _, [] => .ok []
  | level, v :: vs => (again mk level v).bind fun v' => (againAll mk level vs).map (v' :: ·)
end

/-- Contents as the items that paragraphs are made of: tags by their position. There are no lists in these contents. -/
def toItems (incl : Str → Bool) : Nat → List Val → List Para.Item
  | _, [] => []
  | i, .str s :: l => .str s :: toItems incl (i + 1) l
  | i, .tag n _ _ _ :: l => .obj i (incl n) true :: toItems incl (i + 1) l
  | i, .list _ :: l => .obj i true false :: toItems incl (i + 1) l

mutual
/-- The contents that items stand for. -/
def fromItem (vals : List Val) : Para.Item → Val
  | .str s => .str s
  | .obj i _ _ => vals.getD i (.str [])
  | .list l => .list (fromItems vals l)
  | .p c => .tag "p".toList none true (fromItem vals c)

def fromItems (vals : List Val) : List Para.Item → List Val
  | [] => []
  | i :: l => fromItem vals i :: fromItems vals l
end

/-- `p_cls(name='p', content=item, attributes='', context=context)` (`paragraphs.py:262`): the content is parsed again,
and its typography is processed again. Other items stay. -/
def makeP (ch : Chars) (mk : Str → Except PErr Val) (vals : List Val) : Para.Item → Except PErr Val
  | .p c => (again mk 1 (fromItem vals c)).map fun v =>
      .tag "p".toList none true (setVal (Typography.typo ch.sp ch.word) (proc ch.lower) v)
  | i => .ok (fromItem vals i)

/-- The loop over the items (`paragraphs.py:253-264`). -/
def makePs (ch : Chars) (mk : Str → Except PErr Val) (vals : List Val) : List Para.Item → Except PErr (List Val)
  | [] => .ok []
  | i :: l => (makeP ch mk vals i).bind fun v => (makePs ch mk vals l).map (v :: ·)

/-- The result of `Para.process` as contents. -/
def build (ch : Chars) (mk : Str → Except PErr Val) (vals : List Val) : Para.Item → Except PErr Val
  | .list l => (makePs ch mk vals l).map .list
  | i => makeP ch mk vals i

/-- `process_paragraph_tags` (`paragraphs.py:213-275`) on the content of a tag. -/
def paragraphs (ch : Chars) (mk : Str → Except PErr Val) : Val → Except PErr Val
  | .str s => build ch mk [] (Para.process ch.sp (.str s)).1
  | .list l => build ch mk l (Para.process ch.sp (.list (toItems (incl ch.lower) 0 l))).1
  | v => .ok v

/-- The receivers after `process_content`, in their order: typography (300) and paragraphs (400). -/
def receive (ch : Chars) (mk : Str → Except PErr Val) (name : Str) (content : Val) : Except PErr Val :=
  let content := if proc ch.lower name then setVal (Typography.typo ch.sp ch.word) (proc ch.lower) content else content
  if paragraphed ch.lower name then paragraphs ch mk content else .ok content

/-- `parse_tags` on a string (`content.py:80-153`) together with the tags that it creates, as `Parser.parseItems`. The
fuel bounds the recursion: each text is shorter than the one it is in. -/
def makeItems (ch : Chars) : Nat → Str → Except PErr (List Val)
  | 0, _ => .error (.tag .maxDepth)
  | fuel + 1, text =>
    match searchOpen ch.word text with
    | none => .ok (if text = [] then [] else [.str text])
    | some m =>
      let walk := if m.opened then braceLoop 1 m.rest else (0, [], m.rest)
      if walk.1 > 0 then .error (.tag (.notClosed m.name))
      else if kindOf ch.lower m.name = none then .error (.special m.name)
      else
        (if raw ch.lower m.name then .ok (.str walk.2.1.dropLast)
          else (makeItems ch fuel walk.2.1.dropLast).map finish).bind fun content =>
        (receive ch (fun s => (makeItems ch fuel s).map finish) m.name content).bind fun content =>
        (makeItems ch fuel walk.2.2).map fun more =>
          (if m.pre = [] then [] else [.str m.pre]) ++ .tag m.name m.attrs m.opened content :: more

/-- `TagFactory.tag(tag_name='body', tag_content=text, tag_attributes='', context=context)`
(`document/receivers/process_tags.py:38-39`). -/
def makeBody (ch : Chars) (text : Str) : Except PErr Val :=
  ((makeItems ch (text.length + 1) text).map finish).bind fun content =>
    (receive ch (fun s => (makeItems ch (text.length + 1) s).map finish) "body".toList content).map
      (.tag "body".toList none true)

mutual
/-- The tags as they are formatted: their class, name, attributes (`Attributes(attributes)`, `tags/tag.py:98`) and
content. -/
def toNode (ch : Chars) : Val → Node
  | .str s => .str s
  | .tag n a _ c =>
    .tag ((kindOf ch.lower n).getD .generic) n
      (Attrs.load Attrs.trackedTargets ch.posType ch.word ch.sp (a.getD [])) (toNode ch c)
  | .list l => .list (toNodes ch l)

def toNodes (ch : Chars) : List Val → List Node
  | [] => []
  | v :: l => toNode ch v :: toNodes ch l
end

/-- The tag `body` of a document with a text. -/
def page (ch : Chars) (text : Str) : Except PErr Node := (makeBody ch text).map (toNode ch)

end Verif.Page
