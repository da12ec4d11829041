import Verif.Model.VersionText

/-!
# Versions and their texts
-/

namespace Verif.VersionText.Spec

open Verif

/-- The types of releases. -/
inductive Kind where
  | final
  | alpha
  | beta
  | rc
deriving DecidableEq

/-- The word for a type in the tuple. -/
def Kind.word : Kind → Str
  | .final => "final".toList
  | .alpha => "alpha".toList
  | .beta => "beta".toList
  | .rc => "rc".toList

/-- The letters for a type in PEP 440. -/
def Kind.letters : Kind → Str
  | .final => []
  | .alpha => "a".toList
  | .beta => "b".toList
  | .rc => "rc".toList

/-- A version. -/
structure Version where
  major : Nat
  minor : Nat
  update : Nat
  kind : Kind
  number : Nat

/-- The tuple of a version. -/
def Version.tuple (v : Version) : List Item :=
  [.num v.major, .num v.minor, .num v.update, .text v.kind.word, .num v.number]

/-- A public version identifier of PEP 440 without epoch, post-release and development release: numbers with periods
between them, then possibly letters and a number. -/
def Pep440 (s : Str) : Prop :=
  ∃ (release : List Nat) (kind : Kind) (number : Option Nat), release ≠ [] ∧ (kind = .final → number = none) ∧
    s = List.intercalate ".".toList (release.map (Nat.toDigits 10)) ++ kind.letters ++
      (match number with | none => [] | some n => Nat.toDigits 10 n)

end Verif.VersionText.Spec
