import Verif.Model.Attributes

/-! # Specification vocabulary for attributes -/

namespace Verif.Attrs.Spec

open Verif Verif.Attrs

/-- The target names are usable: none of them holds a period. -/
def GoodTargets (targets : List Str) : Prop := ∀ t ∈ targets, '.' ∉ t

/-- `k` is a name followed by `.target` for one of the targets. -/
def Suffixed (targets : List Str) (k : Str) : Prop :=
  ∃ t ∈ targets, ∃ n, k = n ++ '.' :: t

/-- `n` is `k` without its target, if it has one. -/
def WithoutTarget (targets : List Str) (k n : Str) : Prop :=
  (∃ t ∈ targets, k = n ++ '.' :: t) ∨ (¬ Suffixed targets k ∧ n = k)

/-- The value for `name` when rendering to target `T`: the entry `name.T`, and
failing that the entry `name`. -/
def valueFor (d : ADict) (T name : Str) : Option AVal :=
  match d.get? (name ++ '.' :: T) with
  | some v => some v
  | none => d.get? name

/-- A positional entry of a class. -/
def OfClass (pt : PType) (e : Str × AVal) : Prop := ∃ t, e.2 = .pos t ∧ (pt = .any ∨ t = pt)

/-- The first entry with a property. -/
def First (p : Str × AVal → Prop) (d : List (Str × AVal)) (e : Str × AVal) : Prop :=
  ∃ a b, d = a ++ e :: b ∧ p e ∧ ∀ x ∈ a, ¬ p x

/-- The text of a value; none for positional entries. -/
def _root_.Verif.Attrs.AVal.text : AVal → Option Str
  | .str v => some v
  | .pos _ => none

/-- How a `key=value` entry may be spelled. -/
inductive Style where
  | bare | single | double

/-- Spelling of an entry; positional entries are spelled by themselves. -/
def spell : (Str × AVal) × Style → Str
  | ((k, .str v), .bare) => k ++ '=' :: v
  | ((k, .str v), .single) => k ++ '=' :: '\'' :: v ++ ['\'']
  | ((k, .str v), .double) => k ++ '=' :: '"' :: v ++ ['"']
  | ((k, .pos _), _) => k

/-- An attribute string: the spelled entries with a space between them. -/
def spellAll : List ((Str × AVal) × Style) → Str
  | [] => []
  | [e] => spell e
  | e :: es => spell e ++ ' ' :: spellAll es

/-- What is assumed of the regex classes `\w` and `\s`. -/
structure Classes (isWord isSpace : Char → Bool) : Prop where
  space : isSpace ' ' = true
  disjoint : ∀ c, isSpace c = true → isWord c = false
  eq_word : isWord '=' = false
  eq_space : isSpace '=' = false
  sq_word : isWord '\'' = false
  sq_space : isSpace '\'' = false
  dq_word : isWord '"' = false
  dq_space : isSpace '"' = false
  dot_space : isSpace '.' = false

/-- Entries that can be spelled: the key is made of word characters and periods and
the value fits the style of quoting; a positional entry has no whitespace,
brackets, commas, quotes or `=`. -/
def CanSpell (isWord isSpace : Char → Bool) (targets : List Str) (posType : Str → PType) :
    (Str × AVal) × Style → Prop
  | ((k, .str v), st) => k ≠ [] ∧ (∀ c ∈ k, isWord c = true ∨ c = '.') ∧
      match st with
      | .bare => v ≠ [] ∧ ∀ c ∈ v, isSpace c = false ∧ c ≠ ']' ∧ c ≠ '\'' ∧ c ≠ '"'
      | .single => '\'' ∉ v
      | .double => '"' ∉ v ∧ (∀ r, v ≠ '\'' :: r) ∧ ∀ r, v ≠ r ++ ['\'']
  | ((k, .pos t), _) => k ≠ [] ∧
      (∀ c ∈ k, isSpace c = false ∧ c ∉ [',', '[', ']', '"', '\'', '=']) ∧
      ∀ n, WithoutTarget targets k n → t = posType n

end Verif.Attrs.Spec
