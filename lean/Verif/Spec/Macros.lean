import Verif.Model.Macros

/-!
# Specification for macros
-/

namespace Verif.Macros

open Verif

/-- A part of a text: plain text, or a macro with its name and possibly empty braces (with spaces in them). -/
inductive Part
  | text (t : Str)
  | mac (name : Str) (braces : Option Str)
deriving Repr, DecidableEq

/-- The text of a part. -/
def Part.src : Part → Str
  | .text t => t
  | .mac name none => '@' :: name
  | .mac name (some b) => '@' :: name ++ '{' :: b ++ ['}']

/-- The source text of the parts. -/
def src (ps : List Part) : Str := ps.flatMap Part.src

/-- Parts that can be told apart: plain text has no `@`, a name is not empty and made of name
characters, a macro without braces is not followed by a name character, `@` or the start of empty braces. -/
def Good (isWord sp : Char → Bool) : List Part → Prop
  | [] => True
  | .text t :: ps => '@' ∉ t ∧ Good isWord sp ps
  | .mac name b :: ps =>
    name ≠ [] ∧ (∀ c ∈ name, isWord c = true ∨ c = '.') ∧
    (match b with
     | some b => ∀ c ∈ b, sp c = true
     | none => ps = [] ∨ ∃ c t ps', ps = .text (c :: t) :: ps' ∧ isWord c = false ∧ c ≠ '.' ∧
        (c ≠ '{' ∨ ∃ w d t', t = w ++ d :: t' ∧ (∀ x ∈ w, sp x = true) ∧ sp d = false ∧ d ≠ '}')) ∧
    Good isWord sp ps

variable (J : Objs)

/-- `o'` is reached from `o` by the attributes `as`. -/
inductive Path : J.O → List Str → J.O → Prop
  | nil (o : J.O) : Path o [] o
  | cons {o o1 o2 : J.O} {a : Str} {as : List Str} (h : J.isNone o = false) (ha : J.attr o a = some o1) (hp : Path o1 as o2) :
    Path o (a :: as) o2

/-- The pieces of a text between its periods. -/
inductive Pieces : Str → List Str → Prop
  | last (s : Str) : '.' ∉ s → Pieces s [s]
  | piece (s r : Str) (l : List Str) : '.' ∉ s → Pieces r l → Pieces (s ++ '.' :: r) (s :: l)

/-- What a macro stands for: the entry of the first piece in the first dict that has one, the attributes as
far as there are any, and the text of the object reached, with the other pieces behind it. -/
def Stands (dicts : List (Dict Str J.O)) (name v : Str) : Prop :=
  ∃ first as rest o o', Pieces ('@' :: name) (first :: as ++ rest) ∧
    (∃ ds d ds', dicts = ds ++ d :: ds' ∧ (∀ d' ∈ ds, d'.get? first = none) ∧ d.get? first = some o) ∧
    Path J o as o' ∧ J.isNone o' = false ∧ (∀ a ∈ rest.head?, J.attr o' a = none) ∧
    v = J.str o' ++ rest.flatMap ('.' :: ·)

/-- The macro is not defined: no dict has its first piece. -/
def Undefined (dicts : List (Dict Str J.O)) (name : Str) : Prop :=
  ∀ first rest, Pieces ('@' :: name) (first :: rest) → ∀ d ∈ dicts, d.get? first = none

/-- The parts with the defined macros replaced. -/
inductive Replaced (dicts : List (Dict Str J.O)) : List Part → Str → Prop
  | nil : Replaced dicts [] []
  | text {t ps r} (h : Replaced dicts ps r) : Replaced dicts (.text t :: ps) (t ++ r)
  | mac {name b ps v r} (hv : Stands J dicts name v) (h : Replaced dicts ps r) : Replaced dicts (.mac name b :: ps) (v ++ r)
  | undef {name b ps r} (hu : Undefined J dicts name) (h : Replaced dicts ps r) :
    Replaced dicts (.mac name b :: ps) ((Part.mac name b).src ++ r)

end Verif.Macros
