import Verif.Model.Classes

/-!
# Model of the entries that a class of contexts does not inherit

Models `BaseContext.find_do_not_inherit` of `/repo/src/disseminate/context/context.py` on the classes of `Model/Classes`, which are defined
and changed while the program runs. The method resolution order of the classes that are defined is a parameter. Sets are lists.
-/

namespace Verif.InheritCache

open Verif Verif.Classes

/-- The classes, and the classes that have an attribute `_do_not_inherit` of their own other than `None`. -/
structure World where
  table : Table
  caches : Dict Nat (List Str)

/-- `cls.find_do_not_inherit()` (`context/context.py:142-158`). -/
def find (mro : Table → Nat → List Nat) (w : World) (cls : Nat) : World × List Str :=
  match w.caches.get? cls with
  | some v => (w, v)
  | none =>
    let v := allValues w.table (mro w.table) cls "do_not_inherit".toList
    ({ w with caches := w.caches.set cls v }, v)

/-- A class is defined, the attribute `do_not_inherit` of a class is set, or it is searched. -/
inductive Event
  | define (c : ClassDef)
  | assign (cls : Nat) (values : List Str)
  | find (cls : Nat)

/-- One event. -/
def step (mro : Table → Nat → List Nat) (w : World) : Event → World
  | .define c => { w with table := w.table ++ [c] }
  | .assign cls values =>
    { w with table := w.table.modify cls fun c => { c with own := c.own.set "do_not_inherit".toList (.values values) } }
  | .find cls => (find mro w cls).1

/-- A history. -/
def run (mro : Table → Nat → List Nat) (w : World) (es : List Event) : World := es.foldl (step mro) w

end Verif.InheritCache
