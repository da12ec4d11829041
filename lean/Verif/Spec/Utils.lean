import Verif.Model.Utils
import Mathlib.Data.List.Chain

/-! # Specification vocabulary for the string utilities -/

namespace Verif.Utils

open Verif

/-- A key of an entry: not empty, with all its colons (but a first one) escaped, and not ending in a backslash. -/
def GoodKey (k : Str) : Prop :=
  k ≠ [] ∧ (∀ a b, k = a ++ ':' :: b → a ≠ [] → a.getLast? = some '\\') ∧ k.getLast? ≠ some '\\'

/-- A line that starts an entry, and the lines that go with it. -/
structure Block where
  head : Str
  entry : Entry
  body : List Str

/-- The lines a block stands for, in the source. -/
def Block.lines (b : Block) : List Str := b.head :: b.body

/-- The key of a block. -/
def Block.key (sp : Char → Bool) (b : Block) : Str := strip sp b.entry.key

/-- The lines a block contributes to its entry: the value, and the lines below it without the indentation of the key
and with colons unescaped. -/
def Block.value (b : Block) : List Str := b.entry.value :: b.body.map fun l => unescape (l.drop b.entry.level)

/-- The blocks of a text. -/
structure Blocks (sp : Char → Bool) (lines pre : List Str) (bs : List Block) : Prop where
  all : lines = pre ++ bs.flatMap Block.lines
  noEntry : ∀ l ∈ pre, matchEntry sp l = none
  heads : ∀ b ∈ bs, matchEntry sp b.head = some b.entry
  bodies : ∀ b ∈ bs, ∀ l ∈ b.body, ∀ e, matchEntry sp l = some e → e.level > b.entry.level
  levels : bs.IsChain fun b b' => b'.entry.level ≤ b.entry.level

/-- An entry of a dict in its canonical form: a key, the text on its line and the lines below it. -/
structure Item where
  key : Str
  first : Str
  more : List Str

/-- The lines that spell an item. -/
def Item.lines (it : Item) : List Str := (it.key ++ ':' :: ' ' :: it.first) :: it.more

/-- Items that can be spelled: a plain key, a first line without leading space, and indented lines below that do not
start with a colon and hold no escaped colon. -/
structure Item.Good (sp : Char → Bool) (it : Item) : Prop where
  key : it.key ≠ [] ∧ ':' ∉ it.key ∧ it.key.getLast? ≠ some '\\' ∧ strip sp it.key = it.key ∧
    ∀ c t, it.key = c :: t → sp c = false
  first : it.first.dropWhile sp = it.first
  more : ∀ l ∈ it.more, (∃ a c b, l = a ++ c :: b ∧ a ≠ [] ∧ (∀ x ∈ a, sp x = true) ∧ sp c = false ∧ c ≠ ':') ∧
    ¬ ['\\', ':'] <:+: l

end Verif.Utils
