import Verif.Model.Render
import Verif.Spec.Formats
import Verif.Spec.Parser

/-!
# Specification of the rendering of trees of tags

What the LaTeX and the element tree of a tag look like, and which texts a tree has. Of the model only the data types
and the tables of the settings are used.
-/

namespace Verif.Render.Spec

open Verif Verif.Attrs Verif.Attrs.Spec Verif.Formats Verif.Render

/-- `t` is `s` without the spaces at its ends. -/
def Trimmed (sp : Char → Bool) (s t : Str) : Prop :=
  ∃ a b, s = a ++ t ++ b ∧ (∀ c ∈ a, sp c = true) ∧ (∀ c ∈ b, sp c = true) ∧
    (∀ c, t.head? = some c → sp c = false) ∧ ∀ c, t.getLast? = some c → sp c = false

/-- `s` is `a && b` with no other separator. -/
def Halves (s a b : Str) : Prop :=
  s = a ++ "&&".toList ++ b ∧ ¬ "&&".toList <:+: a ++ ['&'] ∧ ¬ "&&".toList <:+: b

/-- The tags whose content is a text of its own. -/
def leaves : List Kind := [.supsub, .symbol, .verb]

/-- The headings (here without labels). -/
def headings : List Kind := [.title, .part, .chapter, .section, .subsection, .subsubsection]

/-- The spaces that an equation is written without. -/
def eqSpace (sp : Char → Bool) (c : Char) : Bool := sp c || [' ', '\t', '\n'].contains c

/-- Each text without the spaces at its ends. -/
inductive TrimmedAll (sp : Char → Bool) : List Str → List Str → Prop
  | nil : TrimmedAll sp [] []
  | cons (s t ss ts) : Trimmed sp s t → TrimmedAll sp ss ts → TrimmedAll sp (s :: ss) (t :: ts)

/-- The texts of a tree, in order, in LaTeX or (`tex = false`) in html, where an equation is an image. -/
inductive HasTexts (sp : Char → Bool) (tex : Bool) : Node → List Str → Prop
  | str (s) : HasTexts sp tex (.str s) [s]
  | supsub (n d s a b a' b') : Halves s a b → Trimmed sp a a' → Trimmed sp b b' →
      HasTexts sp tex (.tag .supsub n d (.str s)) [a', b']
  | symbol (n d s s') : Trimmed sp s s' → HasTexts sp tex (.tag .symbol n d (.str s)) [s']
  | verb (n d s) : HasTexts sp tex (.tag .verb n d (.str s)) [s]
  | tag (k n d c ts) : k ∉ leaves → HasTexts sp tex c ts → HasTexts sp tex (.tag k n d c) ts
  | nil : HasTexts sp tex (.list []) []
  | cons (n l ts us) : HasTexts sp tex n ts → HasTexts sp tex (.list l) us → HasTexts sp tex (.list (n :: l)) (ts ++ us)
  | eq (b n d col c html ts us) : tex = true → HasTexts sp tex c ts → TrimmedAll (eqSpace sp) ts us →
      HasTexts sp tex (.eq b n d col c html) us
  | image (b n d col c html) : tex = false → HasTexts sp tex (.eq b n d col c html) []
  | other (ts tx html) : HasTexts sp tex (.other ts tx html) (ts tex)

/-! ### LaTeX -/

/-- The commands of tags. -/
def commands : List (Kind × String) :=
  [(.bold, "textbf"), (.italics, "textit"), (.sidenote, "marginnote"), (.para, "paragraph")]

/-- The environments of tags. -/
def environments : List (Kind × String) :=
  [(.featurebox, "featurebox"), (.examplebox, "examplebox"), (.problembox, "problembox"),
   (.marginfigure, "marginfigure"), (.figure, "figure"), (.fullfigure, "figure*")]

/-- The tags without markup in LaTeX. -/
def bare : List Kind := [.generic, .body]

/-- The option of a figure: nothing, or a positional attribute in brackets, without a target. -/
def OptionOf (k : Kind) (d : ADict) (o : Str) : Prop :=
  o = [] ∨ k ∈ [Kind.marginfigure, .figure, .fullfigure] ∧
    ∃ w x t, (w ++ x, AVal.pos t) ∈ d ∧ (x = [] ∨ ∃ T ∈ trackedTargets, x = '.' :: T) ∧ o = '[' :: w ++ [']']

/-- The content of an environment is on lines of its own. -/
def OnLines (x y : Str) : Prop :=
  ∃ a b, y = a ++ x ++ b ∧ (a = [] ∨ a = ['\n']) ∧ (b = [] ∨ b = ['\n']) ∧ y.head? = some '\n' ∧ y.getLast? = some '\n'

/-- Mathematics in text. -/
def InMath (math : Bool) (x y : Str) : Prop :=
  y = if math then x else "\\ensuremath{".toList ++ x ++ ['}']

/-- A string. -/
def IsStr (n : Node) : Prop := ∃ s, n = .str s

/-- A list. -/
def IsList (n : Node) : Prop := ∃ l, n = .list l

/-- An equation. -/
def IsEq (n : Node) : Prop := ∃ b nm d col c html, n = .eq b nm d col c html

/-- An entry of attributes, without its target. -/
def Plain (d : ADict) (e : Str × AVal) : Prop :=
  ∃ x, (e.1 ++ x, e.2) ∈ d ∧ (x = [] ∨ ∃ T ∈ trackedTargets, x = '.' :: T)

/-- Required arguments: positional attributes of the types that are needed, in braces. -/
def ArgsOf (d : ADict) (types : List PType) (o : Str) : Prop :=
  ∃ ws : List (Str × PType), ws.map (·.2) = types ∧ (∀ w ∈ ws, Plain d (w.1, .pos w.2)) ∧
    o = ws.flatMap fun w => '{' :: w.1 ++ ['}']

/-- The arguments of an environment. -/
def EnvArgs (d : ADict) (e o : Str) : Prop :=
  ∃ a b, o = a ++ b ∧ ArgsOf d ((texEnvArguments.get? e).getD []) a ∧ (e ∉ texEnvOptionals.keys → b = []) ∧
    ∃ es, (∀ x ∈ es, Plain d x) ∧ Bracketed es b

/-- The environment of an equation: the attribute `env` (for LaTeX), or `align*`. -/
inductive EnvName (d : ADict) : Str → Prop
  | given (v e x) : valueFor d "tex".toList "env".toList = some (.str v) → v = e ++ x → e ≠ [] →
      (x = [] ∧ ¬ Suffixed trackedTargets v ∨ ∃ T ∈ trackedTargets, x = '.' :: T) → EnvName d e
  | none : valueFor d "tex".toList "env".toList = none → EnvName d "align*".toList
  | empty (v) : valueFor d "tex".toList "env".toList = some (.str v) → (v = [] ∨ ∃ T ∈ trackedTargets, v = '.' :: T) →
      EnvName d "align*".toList

/-- The colour of an equation. -/
inductive Coloured : Option (Except RErr ADict) → Str → Str → Prop
  | plain (x) : Coloured none x x
  | colour (a x o) : ArgsOf a [.string] o → Coloured (some (.ok a)) x ("\\textcolor".toList ++ o ++ "{".toList ++ x ++ "}".toList)

/-- An equation is bold if its attributes say so, or by its name. -/
def Emboldened (name : Str) (d : ADict) (x y : Str) : Prop :=
  ("bold".toList ∈ d.keys ∨ name = "termb".toList → y = "\\boldsymbol{".toList ++ x ++ "}".toList) ∧
  (¬ ("bold".toList ∈ d.keys ∨ name = "termb".toList) → y = x)

/-- An equation is as it is in mathematics; in text it is an environment if it is a block, and else inline. -/
inductive Placed (block : Bool) (d : ADict) : Bool → Str → Str → Prop
  | math (x) : Placed block d true x x
  | block (x y e o) : block = true ∨ "env".toList ∈ d.keys → EnvName d e → (e ∈ texEnvArguments.keys ∨ e ∈ texEnvOptionals.keys) →
      EnvArgs d e o → OnLines x y →
      Placed block d false x ("\\begin{".toList ++ e ++ "}".toList ++ o ++ " %".toList ++ y ++ "\\end{".toList ++ e ++ "}".toList)
  | inline (x) : block = false → "env".toList ∉ d.keys → Placed block d false x ("\\ensuremath{".toList ++ x ++ "}".toList)

/-- `Written sp math n x`: the tree `n` is written as `x` in LaTeX (in mathematics, or in text): each tag as its command
or environment around what its content is written as, and lists as the parts one after the other. The content of an
equation is written in mathematics, without spaces at its ends. A paragraph is on lines of its own, but not if it is
an equation only. -/
inductive Written (sp : Char → Bool) : Bool → Node → Str → Prop
  | str (math s) : Written sp math (.str s) s
  | nil (math) : Written sp math (.list []) []
  | cons (math n l x y) : Written sp math n x → Written sp math (.list l) y → Written sp math (.list (n :: l)) (x ++ y)
  | bare (math k n d c x) : k ∈ bare → Written sp math c x → Written sp math (.tag k n d c) x
  | paragraph (math n d c x) : ¬ IsEq c → Written sp math c x → Written sp math (.tag .p n d c) ('\n' :: x ++ ['\n'])
  | eqParagraph (math n d c x) : IsEq c → Written sp math c x → Written sp math (.tag .p n d c) x
  | command (math k n d c x) (cmd : String) : (k, cmd) ∈ commands → Written sp math c x →
      Written sp math (.tag k n d c) ('\\' :: cmd.toList ++ '{' :: x ++ ['}'])
  | environment (math k n d c x y o) (env : String) : (k, env) ∈ environments → Written sp math c x → OnLines x y →
      OptionOf k d o →
      Written sp math (.tag k n d c)
        ("\n\\begin{".toList ++ env.toList ++ "}".toList ++ o ++ y ++ "\\end{".toList ++ env.toList ++ "}\n".toList)
  | sup (math n d c x y) : Written sp math c x → InMath math ("^{".toList ++ x ++ "}".toList) y →
      Written sp math (.tag .sup n d c) y
  | sub (math n d c x y) : Written sp math c x → InMath math ("_{".toList ++ x ++ "}".toList) y →
      Written sp math (.tag .sub n d c) y
  | supsub (math n d s a b a' b' y) : Halves s a b → Trimmed sp a a' → Trimmed sp b b' →
      InMath math ("^{".toList ++ a' ++ "}_{".toList ++ b' ++ "}".toList) y →
      Written sp math (.tag .supsub n d (.str s)) y
  | symbol (math n d s y) : InMath math ('\\' :: s) y → Written sp math (.tag .symbol n d (.str s)) y
  | verb (math n d s q) : n ≠ "verbatim".toList → q ∈ ['|', '!', '^'] → q ∉ s →
      Written sp math (.tag .verb n d (.str s)) ("\\verb".toList ++ q :: s ++ [q])
  | verbatim (math d s y) : OnLines s y →
      Written sp math (.tag .verb "verbatim".toList d (.str s))
        ("\n\\begin{verbatim}".toList ++ y ++ "\\end{verbatim}\n".toList)
  | eq (math b n d col c html x x1 x2 x3 x4 y) : Written sp true c x →
      Trimmed (fun ch => [' ', '\t', '\n'].contains ch) x x1 → Coloured col x1 x2 → Emboldened n d x2 x3 → Trimmed sp x3 x4 →
      Placed b d math x4 y → Written sp math (.eq b n d col c html) y
  | other (math ts tx html x) : tx math = .ok x → Written sp math (.other ts tx html) x

/-- The texts occur one after the other in `out`, and there may be more between them. -/
inductive InOrder : List Str → Str → Prop
  | nil (g) : InOrder [] g
  | cons (g s r ts) : InOrder ts r → InOrder (s :: ts) (g ++ s ++ r)

mutual
/-- The tree has no heading without a label, and no `@verb` with a text that has all three delimiters; other tags have
their texts. -/
def Sayable : Node → Prop
  | .str _ => True
  | .tag k n _ c => k ∉ headings ∧
      (k = .verb → n ≠ "verbatim".toList → ∀ s, c = .str s → '|' ∉ s ∨ '!' ∉ s ∨ '^' ∉ s) ∧ Sayable c
  | .list l => SayableAll l
  | .eq _ _ _ _ c _ => Sayable c
  | .other ts tx _ => ∀ m x, tx m = .ok x → InOrder (ts true) x
/-- The same for the items of a list. -/
def SayableAll : List Node → Prop
  | [] => True
  | n :: l => Sayable n ∧ SayableAll l
end

/-- What an equation needs in LaTeX: a colour that has a name, and an environment that there is, with its arguments. -/
def EqFine (math block : Bool) (d : ADict) (colour : Option (Except RErr ADict)) : Prop :=
  (∀ r, colour = some r → ∃ a k, r = .ok a ∧ (k, AVal.pos .string) ∈ a) ∧
  (math = false → block = true ∨ "env".toList ∈ d.keys → ∃ e, EnvName d e ∧
    (e ∈ texEnvArguments.keys ∨ e ∈ texEnvOptionals.keys) ∧
    ∀ t ∈ (texEnvArguments.get? e).getD [], ∃ k, (k, AVal.pos t) ∈ d)

mutual
/-- There is no list in a list, except for a list of strings that is the only item; `@supsub` has two parts, and the
content of the tags `ks` is text. In LaTeX (`m` is whether it is in mathematics) equations have what they need, in html
(`m` is none) they have an image; other tags can be written. -/
def Flat (ks : List Kind) (m : Option Bool) : Node → Prop
  | .str _ => True
  | .tag k _ _ c => (k = .supsub → ∃ s a b, c = .str s ∧ Halves s a b) ∧ (k ∈ ks → IsStr c) ∧ Flat ks m c
  | .list l => ((∀ n ∈ l, ¬ IsList n) ∨ ∃ l', l = [.list l'] ∧ ∀ n ∈ l', IsStr n) ∧ FlatAll ks m l
  | .eq b _ d col c html => (∀ math, m = some math → Flat ks (some true) c ∧ EqFine math b d col) ∧
      (m = none → ∃ h, html = .ok h)
  | .other _ tx html => (∀ math, m = some math → ∃ x, tx math = .ok x) ∧ (m = none → ∃ h, html = .ok h)
/-- The same for the items of a list. -/
def FlatAll (ks : List Kind) (m : Option Bool) : List Node → Prop
  | [] => True
  | n :: l => Flat ks m n ∧ FlatAll ks m l
end

mutual
/-- No name of an attribute has a brace, and those of equations have none in their values; the braces of other tags are
balanced. -/
def NoBraces : Node → Prop
  | .str _ => True
  | .tag _ _ d c => (∀ k ∈ d.keys, '{' ∉ k ∧ '}' ∉ k) ∧ NoBraces c
  | .list l => NoBracesAll l
  | .eq _ _ d col c _ => (∀ k v, (k, v) ∈ d → '{' ∉ k ∧ '}' ∉ k ∧ ∀ s, v = AVal.str s → '{' ∉ s ∧ '}' ∉ s) ∧
      (∀ a, col = some (.ok a) → ∀ k ∈ a.keys, '{' ∉ k ∧ '}' ∉ k) ∧ NoBraces c
  | .other _ tx _ => ∀ m x, tx m = .ok x → Parser.Spec.Balanced x
/-- The same for the items of a list. -/
def NoBracesAll : List Node → Prop
  | [] => True
  | n :: l => NoBraces n ∧ NoBracesAll l
end

/-! ### Html -/

/-- The elements of the tags that have their own; the others are named after the tag, in lower case. -/
def elements : List (Kind × String) :=
  [(.body, "div"), (.bold, "strong"), (.italics, "i"), (.sup, "sup"), (.sub, "sub"), (.verb, "code"),
   (.sidenote, "sidenote"), (.featurebox, "div"), (.examplebox, "div"), (.problembox, "div"),
   (.marginfigure, "figure"), (.figure, "figure"), (.fullfigure, "figure"),
   (.title, "h1"), (.part, "h1"), (.chapter, "h2"), (.section, "h3"), (.subsection, "h4"), (.subsubsection, "h5"),
   (.para, "paragraph-heading")]

/-- The element of a tag. -/
def ElementOf (lower : Str → Str) (k : Kind) (name e : Str) : Prop :=
  (∃ s, (k, s) ∈ elements ∧ e = s.toList) ∨ (k ∈ [Kind.generic, .p] ∧ e = lower name)

/-- The classes of tags that have some. `true`: they come after a class that is given; else they replace it. -/
def classes : List (Kind × String × Bool) :=
  [(.body, "body", false), (.featurebox, "featurebox", true), (.examplebox, "featurebox examplebox", true),
   (.problembox, "featurebox problembox", true)]

/-- The class of a figure. -/
def figureClasses : List (Kind × String) := [(.marginfigure, "marginfig"), (.figure, "figure"), (.fullfigure, "fullfigure")]

/-- The class of an element, for the class that is given. -/
inductive ClassOf : Kind → Option AVal → Option AVal → Prop
  | replaced (k g) (c : String) : (k, c, false) ∈ classes → ClassOf k g (some (.str c.toList))
  | alone (k) (c : String) : (k, c, true) ∈ classes → ClassOf k none (some (.str c.toList))
  | after (k g) (c : String) : (k, c, true) ∈ classes → ClassOf k (some (.str g)) (some (.str (g ++ ' ' :: c.toList)))
  | figure (k g) (c : String) (sp : Str) : (k, c) ∈ figureClasses → (g = none → sp = []) → (g ≠ none → sp = " ".toList) →
      ClassOf k g (some (.str (sp ++ c.toList)))
  | same (k g) : (∀ c b, (k, c, b) ∉ classes) → (∀ c, (k, c) ∉ figureClasses) → ClassOf k g g

/-- The attributes `d` with another class. -/
def WithClass (d d' : ADict) (c : Option AVal) : Prop :=
  ∀ k, d'.get? k = if k = "class".toList then c else d.get? k

/-- The attributes of an element: the allowed ones that have a text as their value, and the name as the class of a name
that is not allowed if there is no other class. -/
def AttrsOf (name : Str) (d : ADict) (attrs : Dict Str Str) : Prop :=
  ∀ k v, attrs.get? k = some v ↔
    (k ∈ allowedAttrs xhtmlArguments xhtmlOptionals name ∧ d.get? k = some (.str v)) ∨
    (¬ (name ∈ xhtmlArguments.keys ∨ name ∈ xhtmlOptionals.keys) ∧ k = "class".toList ∧ v = name ∧
      d.get? "class".toList = none)

/-- The name of an element: `span` if the name is not allowed. -/
def Allowed (name e : Str) : Prop :=
  (name ∈ xhtmlArguments.keys ∨ name ∈ xhtmlOptionals.keys) ∧ e = name ∨
  ¬ (name ∈ xhtmlArguments.keys ∨ name ∈ xhtmlOptionals.keys) ∧ e = "span".toList

/-- The text, if there is any. -/
def textNodes (s : Str) : List Html := if s = [] then [] else [.text s]

/-- `Shown sp lower n hs`: the tree `n` is shown by the nodes `hs`: each tag by its element around what its content is
shown by, and lists by the nodes one after the other. -/
inductive Shown (sp : Char → Bool) (lower : Str → Str) : Node → List Html → Prop
  | str (s) : Shown sp lower (.str s) (textNodes s)
  | nil : Shown sp lower (.list []) []
  | cons (n l x y) : Shown sp lower n x → Shown sp lower (.list l) y → Shown sp lower (.list (n :: l)) (x ++ y)
  | tag (k n d c kids name e d' cls attrs) : k ≠ .supsub → k ≠ .symbol → Shown sp lower c kids → ElementOf lower k n name →
      Allowed name e → ClassOf k (d.get? "class".toList) cls → WithClass d d' cls → AttrsOf name d' attrs →
      Shown sp lower (.tag k n d c) [.elem e attrs kids]
  | supsub (n d s a b a' b' d' attrs) : Halves s a b → Trimmed sp a a' → Trimmed sp b b' →
      WithClass d d' (some (.str "supsub".toList)) → AttrsOf "span".toList d' attrs →
      Shown sp lower (.tag .supsub n d (.str s))
        [.elem "span".toList attrs (textNodes a' ++ [.elem "br".toList [] []] ++ textNodes b')]
  | symbol (n d s s') : Trimmed sp s s' → Shown sp lower (.tag .symbol n d (.str s)) [.entity s']
  | eq (b n d col c h) : Shown sp lower (.eq b n d col c (.ok h)) [h]
  | other (ts tx h) : Shown sp lower (.other ts tx (.ok h)) [h]

/-- The class that is given has no effect on the element, or is text. -/
def ClassFine (k : Kind) (name : Str) (d : ADict) : Prop :=
  k ∈ [Kind.body, .marginfigure, .figure, .fullfigure] ∨
  (∀ t, d.get? "class".toList ≠ some (.pos t)) ∨
  (k ∉ [Kind.featurebox, .examplebox, .problembox] ∧ "class".toList ∉ allowedAttrs xhtmlArguments xhtmlOptionals name)

mutual
/-- Every tag has the required attributes of its element, and the allowed ones have a text as their value. -/
def AttrsFine (lower : Str → Str) : Node → Prop
  | .str _ => True
  | .tag k n d c =>
    (k = .supsub → ∀ a ∈ ["id".toList, "style".toList], ∀ t, d.get? a ≠ some (.pos t)) ∧
    (k ≠ .supsub → k ≠ .symbol → ∀ name, ElementOf lower k n name →
      (∀ r ∈ namesOf xhtmlArguments name, d.get? r ≠ none) ∧
      (∀ a ∈ allowedAttrs xhtmlArguments xhtmlOptionals name, a ≠ "class".toList → ∀ t, d.get? a ≠ some (.pos t)) ∧
      ClassFine k name d) ∧ AttrsFine lower c
  | .list l => AttrsFineAll lower l
  | .eq .. => True
  | .other .. => True
/-- The same for the items of a list. -/
def AttrsFineAll (lower : Str → Str) : List Node → Prop
  | [] => True
  | n :: l => AttrsFine lower n ∧ AttrsFineAll lower l
end

mutual
/-- The texts of an element tree, in order. -/
def htmlTexts : Html → List Str
  | .text s => [s]
  | .elem _ _ kids => htmlTextsAll kids
  | .entity s => [s]
/-- The same for nodes one after the other. -/
def htmlTextsAll : List Html → List Str
  | [] => []
  | h :: l => htmlTexts h ++ htmlTextsAll l
end

mutual
/-- All elements are allowed, and have allowed attributes only. -/
def AllAllowed : Html → Prop
  | .text _ => True
  | .entity _ => True
  | .elem name attrs kids =>
    (name ∈ xhtmlArguments.keys ∨ name ∈ xhtmlOptionals.keys) ∧
    (∀ k v, attrs.get? k = some v → k ∈ allowedAttrs xhtmlArguments xhtmlOptionals name) ∧ AllAllowedAll kids
/-- The same for nodes one after the other. -/
def AllAllowedAll : List Html → Prop
  | [] => True
  | h :: l => AllAllowed h ∧ AllAllowedAll l
end

mutual
/-- The images of equations have no texts, and other tags have theirs; their elements and attributes are allowed. -/
def Sound : Node → Prop
  | .str _ => True
  | .tag _ _ _ c => Sound c
  | .list l => SoundAll l
  | .eq _ _ _ _ _ html => ∀ h, html = .ok h → htmlTexts h = [] ∧ AllAllowed h
  | .other ts _ html => ∀ h, html = .ok h → (htmlTexts h).filter (· ≠ []) = (ts false).filter (· ≠ []) ∧ AllAllowed h
/-- The same for the items of a list. -/
def SoundAll : List Node → Prop
  | [] => True
  | n :: l => Sound n ∧ SoundAll l
end

end Verif.Render.Spec
