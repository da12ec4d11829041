import Verif.Spec.Attributes
import Verif.Model.EqImage

/-! # Specification vocabulary for the images of equations -/

namespace Verif.EqImage

open Verif Verif.Attrs Verif.Attrs.Spec

/-- `k` is a positional attribute of the equation. -/
def Positional (e : Equation) (k : Str) : Prop := ∃ t, (k, AVal.pos t) ∈ e.attrs

/-- The environment of the equation, if it has one, is one of those for mathematics. -/
def Maths (e : Equation) : Prop :=
  ∀ v, e.attrs.get? "env".toList = some v → ∃ s ∈ ["align", "align*", "alignat", "alignat*"], v = .str s.toList

/-- An equation with usual attributes: their names are distinct, none of them is for one target only, and none is one that the image sets
itself; positional attributes have the class of their texts, and there is at most one number (and at most one of another class, if the
environment is not one for mathematics). -/
structure Plain (posType : Str → PType) (e : Equation) : Prop where
  distinct : e.attrs.keys.Nodup
  general : ∀ k ∈ e.attrs.keys, ¬ Suffixed trackedTargets k
  free : ∀ k ∈ ["crop", "offset", "class"], k.toList ∉ e.attrs.keys
  classes : ∀ k t, (k, AVal.pos t) ∈ e.attrs → t = posType k
  one : ∀ k k' t, (k, AVal.pos t) ∈ e.attrs → (k', AVal.pos t) ∈ e.attrs → k = k' ∨ (t ≠ .int ∧ Maths e)

/-- The texts of the equations are not mistaken for each other: the content of `a` is not a positional attribute of `b` or a hash of the
content of `b`, and that hash is not a positional attribute of `a`. -/
def Apart (hashtxt : Str → Str) (a b : Equation) : Prop :=
  ¬ Positional b a.content ∧ ∀ s, b.raw = some s → a.content ≠ hashtxt s ∧ ¬ Positional a (hashtxt s)

/-- Texts that can be used in names: as those of hashes. -/
def Hashes (hash : List AddFile.Arg → Str) : Prop := ∀ l, (hash l).length = 12 ∧ '.' ∉ hash l ∧ '/' ∉ hash l

end Verif.EqImage
