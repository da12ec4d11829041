import Verif.Model.Dict

/-!
# Model of the tags of header entries

Models `process_tags` of `/repo/src/disseminate/document/receivers/process_tags.py`.

Simplifications: how a tag is made from text (`TagFactory.tag`) is a parameter. It takes the entries of the context, and gives a tag and
what it adds to the document in passing (labels and dependencies), in this order, or raises an exception. What the context is after an
exception is left out.
-/

namespace Verif.HeaderTags

open Verif

/-- The value of an entry of a context: text, a tag, or another value. -/
inductive Val (T : Type)
  | text (s : Str)
  | tag (t : T)
  | other (n : Nat)
deriving Repr, DecidableEq

/-- A context: its entries, and what was added to the document. -/
structure Context (T L : Type) where
  entries : Dict Str (Val T)
  added : List L
deriving Repr, DecidableEq

/-- `TagFactory.tag(tag_name=k, tag_content=value, tag_attributes='', context=context)`. -/
abbrev Maker (T L E : Type) := Dict Str (Val T) → Str → Str → Except E (T × List L)

/-- One entry (`document/receivers/process_tags.py:31-39`). -/
def entry {T L E : Type} (make : Maker T L E) (c : Context T L) (k : Str) : Except E (Context T L) :=
  match c.entries.get? k with
  | some (.text s) =>
    match make c.entries k s with
    | .error e => .error e
    | .ok (t, ls) => .ok ⟨c.entries.set k (.tag t), c.added ++ ls⟩
  | _ => .ok c

/-- `process_tags` (`document/receivers/process_tags.py:9-41`); `keys` are the elements of the set `keys`, in the order in which Python
iterates over it. -/
def processTags {T L E : Type} (make : Maker T L E) : List Str → Context T L → Except E (Context T L)
  | [], c => .ok c
  | k :: keys, c =>
    match entry make c k with
    | .error e => .error e
    | .ok c => processTags make keys c

end Verif.HeaderTags
