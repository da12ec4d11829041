import Verif.Model.Typography

/-!
# Specification of the typography
-/

namespace Verif.Typography

open Verif

/-- What is known of the classes of characters: no character is a space and a word character, and the dashes and
quotes are neither. -/
structure Classes (sp word : Char → Bool) : Prop where
  disjoint : ∀ c, sp c = true → word c = false
  special : ∀ c ∈ "-–—'\"‘’“”".toList, sp c = false ∧ word c = false

/-- The characters that the typography may change: spaces, dashes and quotes. -/
def touched (sp : Char → Bool) (c : Char) : Bool := sp c || "-–—'\"‘’“”".toList.contains c

/-- There is a character, and it is a word character. -/
def wordy (word : Char → Bool) (o : Option Char) : Bool := o.any word

/-- There is a character, and it is not a space. -/
def solid (sp : Char → Bool) (o : Option Char) : Bool := o.any fun c => !sp c

/-- The typographic character for a character between two others. A quote between two word characters is an
apostrophe; a quote that does not follow a word character and precedes a character that is not a space opens; a
quote that follows a character that is not a space and does not precede a word character closes. -/
def curl (sp word : Char → Bool) (prev next : Option Char) (c : Char) : Char :=
  if c = '\'' then
    if wordy word prev && wordy word next then '’'
    else if !wordy word prev && solid sp next then '‘'
    else if solid sp prev && !wordy word next then '’'
    else c
  else if c = '"' then
    if !wordy word prev && solid sp next then '“'
    else if solid sp prev && !wordy word next then '”'
    else c
  else c

/-- Each character is replaced according to its neighbours in the given text. -/
def curlAll (sp word : Char → Bool) : Option Char → Str → Str
  | _, [] => []
  | p, c :: s => curl sp word p s.head? c :: curlAll sp word (some c) s

def isDash (c : Char) : Bool := c = '—' || c = '–'

/-- Characters that may stand next to each other in a text in which all dashes are set: no two hyphens, and no
space beside a dash. -/
def Set (sp : Char → Bool) (a b : Char) : Prop :=
  ¬ (a = '-' ∧ b = '-') ∧ ¬ (sp a = true ∧ isDash b = true) ∧ ¬ (isDash a = true ∧ sp b = true)

/-- `R` holds of all neighbours. -/
def Neighbours (R : Char → Char → Prop) : Str → Prop
  | [] => True
  | [_] => True
  | a :: b :: s => R a b ∧ Neighbours R (b :: s)

/-- The strings of a tree outside of the tags whose typography is not processed, and those inside of them. -/
inductive Part
  | typeset (s : Str)
  | verbatim (t : Tags.Tree)

mutual
def parts (proc : Str → Bool) : Tags.Tree → List Part
  | .str s => [.typeset s]
  | .tag c t => if proc c then parts proc t else [.verbatim t]
  | .list l => allParts proc l

def allParts (proc : Str → Bool) : List Tags.Tree → List Part
  | [] => []
  | t :: l => parts proc t ++ allParts proc l
end

/-- The effect on a part. -/
def setPart (f : Str → Str) : Part → Part
  | .typeset s => .typeset (f s)
  | .verbatim t => .verbatim t

mutual
/-- The tags and lists of a tree without its strings. -/
def shape : Tags.Tree → Tags.Tree
  | .str _ => .str []
  | .tag c t => .tag c (shape t)
  | .list l => .list (shapes l)

def shapes : List Tags.Tree → List Tags.Tree
  | [] => []
  | t :: l => shape t :: shapes l
end

/-- A character that no dash can contain: neither a space, a hyphen nor a dash. -/
def Plain (sp : Char → Bool) (c : Char) : Prop := sp c = false ∧ c ≠ '-' ∧ c ≠ '–' ∧ c ≠ '—'

end Verif.Typography
