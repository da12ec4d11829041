import Verif.Model.Settings
import Verif.Spec.Attributes

/-!
# Vocabulary for the properties of the formats
-/

namespace Verif.Formats

open Verif Verif.Attrs Verif.Attrs.Spec

/-- A target without the periods at its ends. -/
def bare (target : Str) : Str := ((target.dropWhile (· = '.')).reverse.dropWhile (· = '.')).reverse

/-- The value of a plain name for a target, or for no target. -/
def valueOf (d : ADict) (target : Option Str) (n : Str) : Option AVal :=
  match target with
  | some T => valueFor d (bare T) n
  | none => d.get? n

/-- A dict as made from an attribute string: the keys are distinct, the class of a positional value goes with the
value without its target, and no name has two targets. -/
structure Loaded (targets : Targets) (posType : Str → PType) (d : ADict) : Prop where
  nodup : d.keys.Nodup
  typed : ∀ k t, (k, AVal.pos t) ∈ d → ∀ n, WithoutTarget targets k n → t = posType n
  single : ∀ k ∈ d.keys, ∀ n, WithoutTarget targets k n → ¬ Suffixed targets n

/-- An optional argument: the name with its value, or a positional value. -/
def optionText : Str × AVal → Str
  | (k, .str v) => k ++ '=' :: v
  | (k, .pos _) => k

/-- Optional arguments: nothing if there are none, and else all in brackets, with commas between them. -/
inductive Bracketed : List (Str × AVal) → Str → Prop
  | none : Bracketed [] []
  | one (e : Str × AVal) : Bracketed [e] ('[' :: optionText e ++ [']'])
  | more (e e' : Str × AVal) (es : List (Str × AVal)) (s : Str) : Bracketed (e' :: es) ('[' :: s) →
      Bracketed (e :: e' :: es) ('[' :: optionText e ++ ", ".toList ++ s)

/-- The text of a required argument given by its name: the value, or the name if it is positional. -/
def argText : Str → AVal → Str
  | _, .str v => v
  | k, .pos _ => k

/-- The attribute names of a table entry, if there are any. -/
def namesOf (t : Dict Str (List Str)) (name : Str) : List Str := (t.get? name).getD []

/-- The allowed attributes of a tag in html: those of `span` for a tag that is not allowed. -/
def allowedAttrs (args opts : Dict Str (List Str)) (name : Str) : List Str :=
  if name ∈ args.keys ∨ name ∈ opts.keys then namesOf args name ++ namesOf opts name
  else namesOf opts "span".toList

end Verif.Formats
