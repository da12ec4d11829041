import Verif.Model.Scanner

/-!
# Specification of the scan for dependencies
-/

namespace Verif.Scanner

open Verif Verif.Paths

/-- What may stand between the `=` and the name: quotes, spaces and braces. -/
def Opens (sp : Char → Bool) (s : Str) : Prop := s ≠ [] ∧ ∀ c ∈ s, c = '"' ∨ c = '\'' ∨ c = '{' ∨ sp c = true

/-- A tag with a link, up to the quote behind the name: `<link rel="stylesheet" href="name"`. -/
structure IsLink (sp : Char → Bool) (tag key gap attrs opened name : Str) (q : Char) (s : Str) : Prop where
  text : s = tag ++ gap ++ attrs ++ key ++ opened ++ name ++ [q]
  spaces : gap ≠ [] ∧ ∀ c ∈ gap, sp c = true
  ends : attrs = [] ∨ ∃ a c, attrs = a ++ [c] ∧ sp c = true
  noEnd : '>' ∉ attrs
  opens : Opens sp opened
  line : '\n' ∉ name
  closed : q = '"' ∨ q = '\''

/-- The usual links: the name is not empty, has no quotes, and does not begin with a space or a brace, and the tag has one link only. -/
structure Usual (sp : Char → Bool) (key gap attrs opened name : Str) (q : Char) (after : Str) : Prop where
  first : ∀ c, (attrs ++ key).head? = some c → sp c = false
  starts : ∃ c t, name = c :: t ∧ c ≠ '{' ∧ sp c = false
  noQuote : '"' ∉ name ∧ '\'' ∉ name
  once : ∀ a c b, gap ++ attrs ++ key = a ++ [c] ++ key ++ b → sp c = true → b = []
  alone : attrs = [] → ∀ a c b, key ++ opened ++ name ++ [q] ++ after = a ++ [c] ++ key ++ b → sp c = true → '>' ∈ a

/-- A page and the names in its links, in order. -/
inductive Page (sp : Char → Bool) (tag key : Str) : Str → List Str → Prop
  | text (s : Str) : ¬ tag <:+: s → Page sp tag key s []
  | link (plain s gap attrs opened name after : Str) (q : Char) (names : List Str) : ¬ tag <:+: plain →
      IsLink sp tag key gap attrs opened name q s → Usual sp key gap attrs opened name q after → Page sp tag key after names →
      Page sp tag key (plain ++ s ++ after) (name :: names)

/-- The file a link leads to: relative to the directory of the page, or else to the root. -/
inductive LeadsTo (files : Files) (root dir : Path) (stub : Str) : SourcePath → Prop
  | dir (a b rel t : Str) : stub = a ++ rel ++ b → (∀ c ∈ a ++ b, c = '/') → rel.head? ≠ some '/' → rel.getLast? ≠ some '/' →
      files (div root (div dir (parse rel))) = some t → LeadsTo files root dir stub ⟨root, div dir (parse rel)⟩
  | root (a b rel t : Str) : stub = a ++ rel ++ b → (∀ c ∈ a ++ b, c = '/') → rel.head? ≠ some '/' → rel.getLast? ≠ some '/' →
      files (div root (div dir (parse rel))) = none → files (div root (parse rel)) = some t → LeadsTo files root dir stub ⟨root, parse rel⟩

/-- The files links lead to, in order. -/
inductive LeadTo (files : Files) (root dir : Path) : List Str → List SourcePath → Prop
  | nil : LeadTo files root dir [] []
  | cons (s : Str) (p : SourcePath) (ss : List Str) (ps : List SourcePath) : LeadsTo files root dir s p → LeadTo files root dir ss ps →
      LeadTo files root dir (s :: ss) (p :: ps)

/-- A page of the project: a file of a project path with one of the extensions, with its root, its directory and its text. -/
def IsPage (files : Files) (p : PyPath) (root dir : Path) (text : Str) : Prop :=
  (∃ e ∈ [".html".toList, ".htm".toList, ".xhtml".toList], suffix p.full = e) ∧ files p.full = some text ∧
    ((∃ s, p = .source s ∧ root = s.root ∧ dir = ⟨s.sub.abs, s.sub.parts.dropLast⟩) ∨
     ∃ t, p = .target t ∧ root = div t.root t.target ∧ dir = ⟨t.sub.abs, t.sub.parts.dropLast⟩)

/-- The local names in the links of a page: those of its `link` tags, then those of its `img` tags, without those with a protocol. -/
inductive Locals : List Str → List Str → Prop
  | nil : Locals [] []
  | local (n : Str) (ns ms : List Str) : ¬ "://".toList <:+: n → Locals ns ms → Locals (n :: ns) (n :: ms)
  | remote (n : Str) (ns ms : List Str) : "://".toList <:+: n → Locals ns ms → Locals (n :: ns) ms

def Names (sp : Char → Bool) (text : Str) (names : List Str) : Prop :=
  ∃ links imgs, Page sp "<link".toList "href=".toList text links ∧ Page sp "<img".toList "src=".toList text imgs ∧ Locals (links ++ imgs) names

/-- The dependencies of parameters, in order. `names` are the local names in a text. -/
inductive Scanned (files : Files) (names : Str → List Str → Prop) : List PyPath → List SourcePath → Prop
  | nil : Scanned files names [] []
  | page (p : PyPath) (root dir : Path) (text : Str) (ns : List Str) (l ls : List SourcePath) (ps : List PyPath) :
      IsPage files p root dir text → names text ns → LeadTo files root dir ns l → Scanned files names ps ls →
      Scanned files names (p :: ps) (l ++ ls)
  | other (p : PyPath) (ps : List PyPath) (ls : List SourcePath) : (∀ root dir text, ¬ IsPage files p root dir text) →
      Scanned files names ps ls → Scanned files names (p :: ps) ls

end Verif.Scanner
