import Verif.Model.Basic

/-!
# Specification of header blocks
-/

namespace Verif.Header.Spec

open Verif

/-- `b` is a header block with the given header text:

```
---
header
---
```

Spaces and blank lines may come before the markers and after the first one. The markers are the same
number of dashes, at least three. The header text is not empty. The newline after the closing marker, if
any, is part of the block. -/
def IsBlock (sp : Char → Bool) (b header : Str) : Prop :=
  ∃ lead marker trail indent nl,
    b = lead ++ marker ++ trail ++ ['\n'] ++ header ++ ['\n'] ++ indent ++ marker ++ nl ∧
    (∀ c ∈ lead, sp c = true) ∧ (∀ c ∈ trail, sp c = true) ∧ (∀ c ∈ indent, sp c = true) ∧
    (∀ c ∈ marker, c = '-') ∧ 3 ≤ marker.length ∧ header ≠ [] ∧ (nl = [] ∨ nl = ['\n'])

/-- A character class of spaces. -/
structure Spaces (sp : Char → Bool) : Prop where
  nl : sp '\n' = true
  dash : sp '-' = false

/-- There is a marker of `n` dashes on a later line of the text. -/
def HasMarkerLine (sp : Char → Bool) (n : Nat) (s : Str) : Prop :=
  ∃ x indent y, s = x ++ ['\n'] ++ indent ++ List.replicate n '-' ++ y ∧ ∀ c ∈ indent, sp c = true

end Verif.Header.Spec
