import Verif.Model.Decider

/-! # Specification vocabulary for the deciders -/

namespace Verif.Decider

open Verif

/-- `ls` are the lines of `s` and `last` is what follows the last newline. -/
def IsLines (nl : UInt8) (s : Bytes) (ls : List Bytes) (last : Bytes) : Prop :=
  s = (ls.flatMap fun l => l ++ [nl]) ++ last ∧ (∀ l ∈ ls, nl ∉ l) ∧ nl ∉ last

/-- `H` gives different digests of one length to the texts that are hashed. -/
structure NoCollision (H : Bytes → Bytes) (texts : List Bytes) : Prop where
  inj : ∀ x ∈ texts, ∀ y ∈ texts, H x = H y → x = y
  len : ∃ n, n > 0 ∧ ∀ x ∈ texts, (H x).length = n

/-- What counts of an item: a text as it is, the content of a file, and of a pdf file the lines that do not start with one of the
starters (dates and identifiers). -/
inductive Counts (c : Cfg) (fs : FS) : Item → Bytes → Prop
  | other (b : Bytes) : Counts c fs (.other b) b
  | file (p : Str) (s : Bytes) : fs p = some s → c.isPdf p = false → Counts c fs (.path p) s
  | pdf (p : Str) (s : Bytes) (ls : List Bytes) (last : Bytes) : fs p = some s → c.isPdf p = true → IsLines 10 s ls last →
      Counts c fs (.path p) ((ls ++ [last]).filter fun l => ¬ ∃ x ∈ c.starters, x <+: l).flatten

/-- What counts of the items of a list, in order. -/
inductive AllCount (c : Cfg) (fs : FS) : List Item → List Bytes → Prop
  | nil : AllCount c fs [] []
  | cons (it : Item) (t : Bytes) (is : List Item) (ts : List Bytes) : Counts c fs it t → AllCount c fs is ts →
      AllCount c fs (it :: is) (t :: ts)

/-- The contents of two lists of items are the same, in any order. -/
def SameContents (c : Cfg) (fs : FS) (is : List Item) (fs' : FS) (is' : List Item) : Prop :=
  ∃ ts ts', AllCount c fs is ts ∧ AllCount c fs' is' ts' ∧ ts.Perm ts'

/-- The hash does not collide on the contents of two lists of items, nor on their digests put together in any order. -/
def Apart (c : Cfg) (fs : FS) (is : List Item) (fs' : FS) (is' : List Item) : Prop :=
  ∀ ts ts' ds ds' : List Bytes, AllCount c fs is ts → AllCount c fs' is' ts' → ds.Perm (ts.map c.H) → ds'.Perm (ts'.map c.H) →
    NoCollision c.H ((ds.flatten :: ts) ++ (ds'.flatten :: ts'))

/-- All files of a build are there, and it has an input. -/
def AllThere (fs : FS) (inputs : List Item) (output : Item) : Prop :=
  inputs ≠ [] ∧ ∀ p, Item.path p ∈ output :: inputs → fs p ≠ none

/-- A call that records: the files are there, and `reset` is set. The digests of the inputs and of the output are recorded. -/
inductive Records (c : Cfg) (fs : FS) : Event → Bytes → Bytes → Prop
  | call (inputs : List Item) (output : Item) (i o : Bytes) : AllThere fs inputs output → c.hashItems fs inputs = some i →
      c.hashItems fs [output] = some o → Records c fs (.call inputs output true) i o

end Verif.Decider
