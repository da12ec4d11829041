import Verif.Model.Preamble

/-!
# What names, titles and labels of documents should be

Independent of the functions of the model: it uses the model's data, `List` functions and paths.
-/

namespace Verif.Preamble.Spec

open Verif Verif.Preamble Verif.Paths

/-- Names in a sentence: `a`, `a and b`, `a, b and c`. -/
def listed : List Str → Str
  | [] => []
  | [a] => a
  | [a, b] => a ++ " and ".toList ++ b
  | a :: b :: c :: l => a ++ ", ".toList ++ listed (b :: c :: l)

/-- The subpath of a document. -/
def path : Doc → Path | .mk p _ _ _ => p
/-- The own title of a document. -/
def own : Doc → Option Title | .mk _ t _ _ => t
/-- The own short title of a document. -/
def ownShort : Doc → Option Title | .mk _ _ s _ => s
/-- The subdocuments of a document. -/
def subs : Doc → List Doc | .mk _ _ _ ds => ds

mutual
/-- The documents of a project in the order of their inclusion, each with the documents above it: a line from the root down to the
document. -/
def lines : Doc → List (List Doc)
  | .mk p t s ds => [.mk p t s ds] :: (linesAll ds).map fun l => .mk p t s ds :: l
def linesAll : List Doc → List (List Doc)
  | [] => []
  | d :: ds => lines d ++ linesAll ds
end

/-- The text of a title: a text stands for itself, a tag for its text without the spaces around it. -/
def Says (sp : Char → Bool) : Title → Str → Prop
  | .text s, r => r = s
  | .tag t, r => ∃ a b, t = a ++ r ++ b ∧ (∀ c ∈ a ++ b, sp c) ∧ (∀ c, r.head? = some c → sp c = false) ∧
      (∀ c, r.getLast? = some c → sp c = false)

/-- `r` is the name of a document at the end of `line`: what its short title says, or else the title of the nearest document of the line
that has one, counted from the document itself, or else the path of its file without the extension. -/
def Named (sp : Char → Bool) (line : List Doc) (d : Doc) (r : Str) : Prop :=
  match ownShort d, line.reverse.findSome? own with
  | some t, _ => Says sp t r
  | none, some t => Says sp t r
  | none, none => ∀ dirs stem ext, (path d).parts = dirs ++ [stem ++ '.' :: ext] → stem ≠ [] → ext ≠ [] → '.' ∉ ext →
      (path d).abs = false → r = ['/'].intercalate (dirs ++ [stem])

/-- `ps` are the texts `es` with spaces around them. -/
def Padded (sp : Char → Bool) (ps es : List Str) : Prop :=
  ps.length = es.length ∧ ∀ (i : Nat) (p e : Str), ps[i]? = some p → es[i]? = some e → Says sp (.tag p) e

/-- The text `s` writes the names `es`: one name, or names with semicolons, or newlines, or commas in between. -/
inductive Written (sp : Char → Bool) : List Str → Str → Prop
  | one (s : Str) : ';' ∉ s → '\n' ∉ s → ',' ∉ s → Written sp [s] s
  | semicolons (ps es : List Str) : 2 ≤ ps.length → Padded sp ps es → (∀ p ∈ ps, ';' ∉ p) → Written sp es ([';'].intercalate ps)
  | lines (ps es : List Str) : 2 ≤ ps.length → Padded sp ps es → (∀ p ∈ ps, ';' ∉ p ∧ '\n' ∉ p) → (∀ e ∈ es, e ≠ []) →
      Written sp es (['\n'].intercalate ps)
  | commas (ps es : List Str) : 2 ≤ ps.length → Padded sp ps es → (∀ p ∈ ps, ';' ∉ p ∧ '\n' ∉ p ∧ ',' ∉ p) →
      Written sp es ([','].intercalate ps)

end Verif.Preamble.Spec
