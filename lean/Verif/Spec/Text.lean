import Verif.Model.Text

/-!
# Specification of the functions for texts
-/

namespace Verif.Utils

open Verif

/-- The lines of a text. Each line ends with a line break, which is one character or `\r\n`; the last one may do
without, if it is not empty. -/
inductive Lines (brk : Char → Bool) : Str → List Str → Prop
  | nil : Lines brk [] []
  | last (l : Str) : l ≠ [] → (∀ c ∈ l, brk c = false) → Lines brk l [l]
  | one (l : Str) (c : Char) (s : Str) (ls : List Str) : (∀ c ∈ l, brk c = false) → brk c = true →
      (c = '\r' → s.head? ≠ some '\n') → Lines brk s ls → Lines brk (l ++ c :: s) (l :: ls)
  | crlf (l s : Str) (ls : List Str) : (∀ c ∈ l, brk c = false) → Lines brk s ls → Lines brk (l ++ '\r' :: '\n' :: s) (l :: ls)

/-- A text in which the spaces with newlines among them are each replaced by a single space. -/
inductive Joined (sp : Char → Bool) : Str → Str → Prop
  | nil : Joined sp [] []
  | newline (w s t : Str) : (∀ c ∈ w, sp c = true) → '\n' ∈ w → (∀ c ∈ s.head?, sp c = false) → Joined sp s t →
      Joined sp (w ++ s) (' ' :: t)
  | space (w s t : Str) : (∀ c ∈ w, sp c = true) → '\n' ∉ w → w ≠ [] → (∀ c ∈ s.head?, sp c = false) → Joined sp s t →
      Joined sp (w ++ s) (w ++ t)
  | char (c : Char) (s t : Str) : sp c = false → Joined sp s t → Joined sp (c :: s) (c :: t)

/-- A text in which newlines that follow each other are replaced by one. -/
inductive OneNewline : Str → Str → Prop
  | last (p : Str) : '\n' ∉ p → OneNewline p p
  | more (p : Str) (n : Nat) (s t : Str) : '\n' ∉ p → s.head? ≠ some '\n' → OneNewline s t →
      OneNewline (p ++ List.replicate (n + 1) '\n' ++ s) (p ++ '\n' :: t)

/-- A text with escaped colons and the text without the escapes. -/
inductive Unescaped : Str → Str → Prop
  | nil : Unescaped [] []
  | colon (s t : Str) : Unescaped s t → Unescaped ('\\' :: ':' :: s) (':' :: t)
  | char (c : Char) (s t : Str) : (c = '\\' → s.head? ≠ some ':') → Unescaped s t → Unescaped (c :: s) (c :: t)

/-- A text is enclosed in the quotes `q`, apart from spaces around them, and there is an even number of `q` between them; `r` is
the text without these two. -/
def Quoted (sp : Char → Bool) (q : Char) (s r : Str) : Prop :=
  ∃ pre body post, s = pre ++ q :: (body ++ q :: post) ∧ r = pre ++ body ++ post ∧ (∀ c ∈ pre, sp c = true) ∧
    (∀ c ∈ post, sp c = true) ∧ body.count q % 2 = 0

/-- A word that starts with its only capital letter. -/
def CapWord (w : Str) : Prop := ∃ c t, w = c :: t ∧ c.isUpper = true ∧ ∀ x ∈ t, x.isUpper = false

end Verif.Utils
