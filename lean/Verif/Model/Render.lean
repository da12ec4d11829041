import Verif.Model.Settings

/-!
# Rendering of trees of tags

Model of the formatting of tags in LaTeX and html: `Tag.tex_fmt` and `Tag.html_fmt` of
`src/disseminate/tags/tag.py`, `format_content` of `src/disseminate/tags/utils.py`, and the classes of
`src/disseminate/tags/text.py`, `notes.py`, `featurebox.py`, `figs.py` and `headings.py` that change them.

Not modelled here: the serialisation of the element tree by lxml. `Entity` of lxml refuses some names and elements
refuse control characters in text: these errors are left out. The contents of tags are strings, tags and lists. Equations
are modelled in LaTeX (`src/disseminate/tags/eqs.py`); their html, and images, are in `Verif.Model.Media`. A tag that is
not modelled (headings and captions with a label, tables, lists, references) is one with a LaTeX and a html of its own.
-/

namespace Verif.Render

open Verif Verif.Attrs Verif.Formats

/-- The classes of tags. A heading is one without a label (`@chapter[nolabel]{…}`); `generic` is `Tag`. -/
inductive Kind
  | generic
  | body | p | bold | italics | sup | sub | supsub | symbol | verb
  | sidenote
  | featurebox | examplebox | problembox
  | marginfigure | figure | fullfigure
  | title | part | chapter | section | subsection | subsubsection
  | para
deriving Repr, DecidableEq

/-- The errors: `TexFormatError`, `XHtmlFormatError` and the errors of lxml for attributes, `TypeError`, `TagError`, and
those of tags that are not modelled here. -/
inductive RErr
  | tex (e : TexErr)
  | html (e : XErr)
  | type
  | tag
  | other
deriving Repr, DecidableEq

/-- An element tree: text, an element with its name, attributes and contents, or an entity. -/
inductive Html
  | text (s : Str)
  | elem (name : Str) (attrs : Dict Str Str) (kids : List Html)
  | entity (s : Str)
deriving Repr

/-- The content of a tag: a string, a tag with its class, name, attributes and content, or a list.

An equation has its name, its attributes, whether it is a block by a parameter or as a paragraph of its own
(`tags/eqs.py:60-64`), its colour (the attribute `color`, read as attributes by `tex_cmd`: an error if it is positional),
its content, and the element of its image. Another tag has its texts (in LaTeX, or in html), its LaTeX (in mathematics, or
in text) and its element. -/
inductive Node
  | str (s : Str)
  | tag (k : Kind) (name : Str) (attrs : ADict) (content : Node)
  | list (l : List Node)
  | eq (block : Bool) (name : Str) (attrs : ADict) (colour : Option (Except RErr ADict)) (content : Node)
      (html : Except RErr Html)
  | other (texts : Bool → List Str) (tex : Bool → Except RErr Str) (html : Except RErr Html)

/-! ### LaTeX -/

/-- `tex_cmd` with the tables of the settings (`formats/tex.py:15-89`). -/
def cmd (c : Str) (d : ADict) (content : Str) : Except RErr Str :=
  (texCmd trackedTargets (posTable texCmdArguments) (nameTable texCmdOptionals) c d (some content)).mapError .tex

/-- `tex_env` with the tables of the settings (`formats/tex.py:92-182`). -/
def env (e : Str) (d : ADict) (content : Str) : Except RErr Str :=
  (texEnv trackedTargets (posTable texEnvArguments) texEnvOptionals e d content false).mapError .tex

/-- `tex_cmd(cmd='ensuremath', …) if not mathmode else content` (`tags/text.py:142-145`, `:172-175`, `:228-231`,
`:257-260`). -/
def inMath (math : Bool) (s : Str) : Except RErr Str :=
  if !math then cmd "ensuremath".toList [] s else .ok s

/-- The class attribute `tex_cmd` (`tags/text.py:93`, `:114`; `tags/notes.py:13`; `tags/headings.py:182`). -/
def texCmdOf : Kind → Option Str
  | .bold => some "textbf".toList
  | .italics => some "textit".toList
  | .sidenote => some "marginnote".toList
  | .para => some "paragraph".toList
  | _ => none

/-- The class attribute `tex_env` (`tags/featurebox.py:25`, `:44`, `:51`; `tags/figs.py:65`, `:80`, `:89`). -/
def texEnvOf : Kind → Option Str
  | .featurebox => some "featurebox".toList
  | .examplebox => some "examplebox".toList
  | .problembox => some "problembox".toList
  | .marginfigure => some "marginfigure".toList
  | .figure => some "figure".toList
  | .fullfigure => some "figure*".toList
  | _ => none

/-- The name of the command of a heading: its class name (`tags/headings.py:81`). -/
def headingCmd : Kind → Option Str
  | .title => some "title".toList
  | .part => some "part".toList
  | .chapter => some "chapter".toList
  | .section => some "section".toList
  | .subsection => some "subsection".toList
  | .subsubsection => some "subsubsection".toList
  | _ => none

/-- `getattr(self.content, 'tex_paragraph_newlines', True)` (`tags/text.py:70`, `tags/eqs.py:39`, `tags/tag.py:86`). -/
def paragraphNewlines : Node → Bool
  | .eq .. => false
  | _ => true

/-- What a tag does with its formatted content (`tags/tag.py:273-283`; `P.tex_fmt`, `tags/text.py:61-73`; `Sup.tex_fmt`
and `Sub.tex_fmt`, `:132-145`, `:162-175`). `newlines` is `tex_paragraph_newlines` of the content. -/
def texWrap (newlines : Bool) (k : Kind) (d : ADict) (math : Bool) (content : Str) : Except RErr Str :=
  match k with
  | .sup => inMath math ("^{".toList ++ content ++ ['}'])
  | .sub => inMath math ("_{".toList ++ content ++ ['}'])
  | .p => .ok (if newlines then '\n' :: content ++ ['\n'] else content)
  | k => match texCmdOf k with
    | some c => cmd c d content
    | none => match texEnvOf k with
      | some e => env e d content
      | none => .ok content

/-- The parts of `@supsub` (`tags/text.py:195-214`); `none` for a `TagError`. -/
def supsubParts (sp : Char → Bool) (s : Str) : Option (Str × Str) :=
  match split "&&".toList s with
  | [a, b] => some (strip sp a, strip sp b)
  | _ => none

/-- The tags that do not format their content: `Supsub.tex_fmt` (`tags/text.py:225-231`), `Symbol.tex_fmt`
(`:253-260`), `Verb.tex_fmt` (`:314-319`), and `Heading.tex_fmt` without a label (`tags/headings.py:79-111`), where
`content` is the empty string. The content of the first three is a string: for `Supsub` and `Symbol` the constructor
raises (`tags/text.py:199-201`, `:249`), the content of `Verb` is not processed. -/
def texLeaf (sp : Char → Bool) (k : Kind) (name : Str) (d : ADict) (math : Bool) (content : Node) :
    Option (Except RErr Str) :=
  match k with
  | .supsub => some (match content with
    | .str s => match supsubParts sp s with
      | some (a, b) => inMath math ("^{".toList ++ a ++ "}_{".toList ++ b ++ ['}'])
      | none => .error .tag
    | _ => .error .tag)
  | .symbol => some (match content with
    | .str s => inMath math ('\\' :: s)
    | _ => .error .tag)
  | .verb => some (match content with
    | .str s => if name = "verbatim".toList then env "verbatim".toList [] s else .ok (texVerb s)
    | _ => .error .tag)
  | k => (headingCmd k).map fun c => cmd c d []

/-- `''.join(content)` for a list of formatted items: tags have become strings, lists have stayed. -/
def joinParts : List Node → Except RErr Str
  | [] => .ok []
  | .str s :: l => (joinParts l).map (s ++ ·)
  | _ :: _ => .error .type

/-- `''.join(content) if isinstance(content, list) else content` (`tags/tag.py:271`) after `format_content`
(`tags/utils.py:59`), which gives the only item of a list with one item. -/
def joinItems (items : List Node) : Except RErr Str :=
  match items with
  | [.list l] => joinParts l
  | items => joinParts items

/-- The environment of an equation (`tags/eqs.py:77`): an error in `tex_env` if it is positional (`formats/tex.py:120-124`). -/
def eqEnv (d : ADict) : Except RErr Str :=
  match Attrs.get trackedTargets d (.name "env".toList) (some ".tex".toList) with
  | some (.str e) => .ok (if e = [] then "align*".toList else e)
  | some (.pos _) => .error (.tex .notAllowed)
  | none => .ok "align*".toList

/-- The colour of an equation (`tags/eqs.py:79-83`). -/
def eqColour (colour : Option (Except RErr ADict)) (content : Str) : Except RErr Str :=
  match colour with
  | none => .ok content
  | some (.error e) => .error e
  | some (.ok a) => cmd "textcolor".toList a content

/-- What an equation does with its content in LaTeX: `content.strip(' \t\n')` (`tags/eqs.py:55-58`), then `Eq.tex_fmt`
(`:70-98`). -/
def eqTex (sp : Char → Bool) (block : Bool) (name : Str) (d : ADict) (colour : Option (Except RErr ADict)) (math : Bool)
    (content : Str) : Except RErr Str :=
  (eqColour colour (strip (fun c => c == ' ' || c == '\t' || c == '\n') content)).bind fun c =>
  (if d.has "bold".toList || name = "termb".toList then cmd "boldsymbol".toList [] c else .ok c).bind fun c =>
  let c := strip sp c
  if math then .ok c
  else if block || d.has "env".toList then
    (eqEnv d).bind fun e =>
      (texEnv trackedTargets (posTable texEnvArguments) texEnvOptionals e d c true).mapError .tex
  else cmd "ensuremath".toList d c

mutual
/-- The formatted content as a string (`tags/tag.py:267-271`), and for a tag its `tex_fmt`. `sp` are the spaces of
`str.strip`. -/
def texFmt (sp : Char → Bool) (math : Bool) : Node → Except RErr Str
  | .str s => .ok s
  | .list l => (texItems sp math l).bind joinItems
  | .tag k name d content =>
    match texLeaf sp k name d math content with
    | some r => r
    | none => (texFmt sp math content).bind (texWrap (paragraphNewlines content) k d math)
  | .eq block name d colour content _ => (texFmt sp true content).bind (eqTex sp block name d colour math)
  | .other _ tex _ => tex math

/-- The list comprehension of `format_content` (`tags/utils.py:57-58`): tags are formatted, the rest is as before. -/
def texItems (sp : Char → Bool) (math : Bool) : List Node → Except RErr (List Node)
  | [] => .ok []
  | .str s :: l => (texItems sp math l).map (.str s :: ·)
  | .list l' :: l => (texItems sp math l).map (.list l' :: ·)
  | .tag k name d content :: l =>
    match texFmt sp math (.tag k name d content) with
    | .error e => .error e
    | .ok s => (texItems sp math l).map (.str s :: ·)
  | .eq block name d colour content html :: l =>
    match texFmt sp math (.eq block name d colour content html) with
    | .error e => .error e
    | .ok s => (texItems sp math l).map (.str s :: ·)
  | .other texts tex html :: l =>
    match texFmt sp math (.other texts tex html) with
    | .error e => .error e
    | .ok s => (texItems sp math l).map (.str s :: ·)
end

/-! ### Html -/

/-- `self.html_name if self.html_name is not None else self.name.lower()` (`tags/tag.py:315-316`) with the class
attribute `html_name` of each class (`tags/text.py:20`, `:92`, `:113`, `:129`, `:159`, `:305`; `tags/notes.py:12`;
`tags/featurebox.py:23`; `tags/figs.py:21`; `tags/headings.py:127-181`). -/
def htmlName (lower : Str → Str) (k : Kind) (name : Str) : Str :=
  match k with
  | .body | .featurebox | .examplebox | .problembox => "div".toList
  | .bold => "strong".toList
  | .italics => "i".toList
  | .sup => "sup".toList
  | .sub => "sub".toList
  | .verb => "code".toList
  | .sidenote => "sidenote".toList
  | .marginfigure | .figure | .fullfigure => "figure".toList
  | .title | .part => "h1".toList
  | .chapter => "h2".toList
  | .section => "h3".toList
  | .subsection => "h4".toList
  | .subsubsection => "h5".toList
  | .para => "paragraph-heading".toList
  | _ => lower name

/-- The classes added in html by feature boxes (`tags/featurebox.py:24`, `:43`, `:50`). -/
def boxClasses : Kind → Option Str
  | .featurebox => some "featurebox".toList
  | .examplebox => some "featurebox examplebox".toList
  | .problembox => some "featurebox problembox".toList
  | _ => none

/-- The class attribute `html_class` of figures (`tags/figs.py:64`, `:79`, `:88`). -/
def figureClass : Kind → Option Str
  | .marginfigure => some "marginfig".toList
  | .figure => some "figure".toList
  | .fullfigure => some "fullfigure".toList
  | _ => none

/-- The attributes used in html: `Body.html_fmt` (`tags/text.py:22-25`), `FeatureBox.html_fmt`
(`tags/featurebox.py:30-37`), `BaseFigure.html_fmt` (`tags/figs.py:48-57`); `Verb.html_fmt` (`tags/text.py:307-312`) sets
a class but does not pass it on. A class that is positional is not text. -/
def htmlAttrs (k : Kind) (d : ADict) : Except RErr ADict :=
  let cls := "class".toList
  match k with
  | .body => .ok (d.set cls (.str "body".toList))
  | k => match boxClasses k with
    | some c => match d.get? cls with
      | some (.str v) => .ok (d.set cls (.str (v ++ ' ' :: c)))
      | some (.pos _) => .error .type
      | none => .ok (d.set cls (.str c))
    | none => match figureClass k with
      | some c => .ok (d.set cls (.str (if d.has cls then ' ' :: c else c)))
      | none => .ok d

/-- A part that lxml makes a child of; `none` for a part that it refuses (a list or a tag): `TypeError`. -/
def toKids : List (Part (Option Html)) → Except RErr (List Html)
  | [] => .ok []
  | .text s :: l => (toKids l).map (.text s :: ·)
  | .none :: _ => .error .type
  | .elem (some h) :: l => (toKids l).map (h :: ·)
  | .elem none :: _ => .error .type

/-- `xhtml_tag` with the tables of the settings and no target (`formats/xhtml.py:29-173`). -/
def element (name : Str) (d : ADict) (content : List (Part (Option Html))) : Except RErr Html :=
  match xhtmlTag trackedTargets (nameTable xhtmlArguments) (nameTable xhtmlOptionals) name d none content with
  | .error e => .error (.html e)
  | .ok e => (toKids e.content).map (.elem e.name e.attrs)

/-- The tags that do not format their content: `Supsub.html_fmt` (`tags/text.py:216-223`) and `Symbol.html_fmt`
(`:262-265`) with `xhtml_entity` (`formats/xhtml.py:180-224`). -/
def htmlLeaf (sp : Char → Bool) (k : Kind) (d : ADict) (content : Node) : Option (Except RErr Html) :=
  match k with
  | .supsub => some (match content with
    | .str s => match supsubParts sp s with
      | some (a, b) => (element "br".toList [] []).bind fun br =>
          element "span".toList (d.set "class".toList (.str "supsub".toList)) [.text a, .elem (some br), .text b]
      | none => .error .tag
    | _ => .error .tag)
  | .symbol => some (match content with
    | .str s => .ok (.entity (strip sp s))
    | _ => .error .tag)
  | _ => none

/-- Items that have not been formatted: those of a list in a list with one item. -/
def rawParts (l : List Node) : List (Part (Option Html)) :=
  l.map fun
    | .str s => .text s
    | _ => .elem none

mutual
/-- `html_fmt` of a tag (`tags/tag.py:289-328`). -/
def htmlFmt (sp : Char → Bool) (lower : Str → Str) : Node → Except RErr (List (Part (Option Html)))
  | .str s => .ok [.text s]
  | .list [.list l] => .ok (rawParts l)
  | .list l => htmlItems sp lower l
  | .tag k name d content =>
    match htmlLeaf sp k d content with
    | some r => r.map fun h => [.elem (some h)]
    | none =>
      match htmlAttrs k d with
      | .error e => .error e
      | .ok d' => match htmlFmt sp lower content with
        | .error e => .error e
        | .ok parts => (element (htmlName lower k name) d' parts).map fun h => [.elem (some h)]
  | .eq _ _ _ _ _ html => html.map fun h => [.elem (some h)]
  | .other _ _ html => html.map fun h => [.elem (some h)]

/-- The list comprehension of `format_content` (`tags/utils.py:57-58`). -/
def htmlItems (sp : Char → Bool) (lower : Str → Str) : List Node → Except RErr (List (Part (Option Html)))
  | [] => .ok []
  | .str s :: l => (htmlItems sp lower l).map (.text s :: ·)
  | .list _ :: l => (htmlItems sp lower l).map (.elem none :: ·)
  | .tag k name d content :: l =>
    match htmlFmt sp lower (.tag k name d content) with
    | .error e => .error e
    | .ok ps => (htmlItems sp lower l).map (ps ++ ·)
  | .eq block name d colour content html :: l =>
    match htmlFmt sp lower (.eq block name d colour content html) with
    | .error e => .error e
    | .ok ps => (htmlItems sp lower l).map (ps ++ ·)
  | .other texts tex html :: l =>
    match htmlFmt sp lower (.other texts tex html) with
    | .error e => .error e
    | .ok ps => (htmlItems sp lower l).map (ps ++ ·)
end

end Verif.Render
