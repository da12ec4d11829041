import Verif.Model.Parser

/-!
# Specification vocabulary for the tag parser

What the source text of parsed content is, what "properly nested braces" are,
and how a tag is spelled. Nothing here refers to how the parser works.
-/

namespace Verif.Parser.Spec

open Verif Verif.Parser

mutual
/-- The source text a parsed value stands for. -/
def source : Val → Str
  | .str s => s
  | .tag n a b c =>
    '@' :: n ++ a.getD [] ++ (if b then '{' :: source c ++ ['}'] else [])
  | .list l => sources l
def sources : List Val → Str
  | [] => []
  | v :: vs => source v ++ sources vs
end

/-- Every closing brace closes an earlier opening brace, and all are closed. -/
def Balanced (s : Str) : Prop :=
  s.count '{' = s.count '}' ∧ ∀ p, p <+: s → p.count '}' ≤ p.count '{'

/-- At no point are more than `d` braces open. -/
def DepthLE (d : Nat) (s : Str) : Prop :=
  ∀ p, p <+: s → p.count '{' ≤ p.count '}' + d

/-- A closing brace that matches an opening brace just before `after` exists
within the supported depth: `after = body ++ '}' ++ rest`. -/
def Closes (after body rest : Str) : Prop :=
  after = body ++ '}' :: rest ∧ Balanced body ∧ DepthLE 8 body

/-- The text holds no `@` followed by a letter or digit. -/
def NoTag (s : Str) : Prop :=
  ∀ a c b, s = a ++ '@' :: c :: b → c.isAlphanum = false

/-- `body` can be the inside of an attribute bracket. -/
def IsAttrBody (body : Str) : Prop := body ≠ [] ∧ ']' ∉ body

/-- `'@' ++ name ++ attrs ++ after` is spelled so that the tag name is exactly
`name` and its attribute bracket exactly `attrs`. -/
structure IsHead (isWord : Char → Bool) (name : Str) (attrs : Option Str) (after : Str) :
    Prop where
  name_ok : ∃ c w, name = c :: w ∧ c.isAlphanum = true ∧ ∀ x ∈ w, isWord x = true
  attrs_ok : ∀ a, attrs = some a → ∃ b, a = '[' :: b ++ [']'] ∧ IsAttrBody b
  name_max : ∀ x r, attrs.getD [] ++ after = x :: r → isWord x = false
  attrs_max : attrs = none → ∀ b r, after = '[' :: b ++ ']' :: r → ¬ IsAttrBody b

/-- The text contains an opened tag without a matching closing brace, at a place
the parser has to look at: at the top level, inside the content of a parsed
tag, or behind one. -/
inductive Unclosed (isWord : Char → Bool) (raw : Str → Bool) : Str → Prop where
  | here (pre name attrs after) : NoTag pre → IsHead isWord name attrs ('{' :: after) →
      (¬ ∃ body rest, Closes after body rest) →
      Unclosed isWord raw (pre ++ '@' :: name ++ attrs.getD [] ++ '{' :: after)
  | inside (pre name attrs after body rest) : NoTag pre →
      IsHead isWord name attrs ('{' :: after) → Closes after body rest →
      raw name = false → Unclosed isWord raw body →
      Unclosed isWord raw (pre ++ '@' :: name ++ attrs.getD [] ++ '{' :: after)
  | behind (pre name attrs after body rest) : NoTag pre →
      IsHead isWord name attrs ('{' :: after) → Closes after body rest →
      Unclosed isWord raw rest →
      Unclosed isWord raw (pre ++ '@' :: name ++ attrs.getD [] ++ '{' :: after)
  | behindBare (pre name attrs rest) : NoTag pre → IsHead isWord name attrs rest →
      (∀ r, rest ≠ '{' :: r) → Unclosed isWord raw rest →
      Unclosed isWord raw (pre ++ '@' :: name ++ attrs.getD [] ++ rest)

/-- `Within v t`: the value `t` occurs in `v`, at any depth. -/
inductive Within : Val → Val → Prop where
  | refl (v) : Within v v
  | content (n a b c t) : Within c t → Within (.tag n a b c) t
  | item (l v t) : v ∈ l → Within v t → Within (.list l) t

/-- The items at the top level of a value. -/
def top : Val → List Val
  | .list l => l
  | .str [] => []
  | v => [v]

end Verif.Parser.Spec
