import Verif.Model.Dict

/-!
# Model of the test for active builders

Models `Builder.active` of `/repo/src/disseminate/builders/builder.py`, with the dict `Builder._active` that all builder classes share, while
programs are installed and removed.
-/

namespace Verif.BuilderActive

open Verif

/-- `required_execs`: missing, a tuple, or another collection. -/
inductive Execs
  | none
  | tuple (l : List Str)
  | other (l : List Str)
deriving Repr, DecidableEq

/-- A builder class: its name, `active_requirements` (empty for `None` and `False`; simplification: `True`, which the documentation allows
and which raises, is not modelled), whether `priority` is an integer, and `required_execs`. -/
structure Cls where
  name : Str
  requirements : List Str
  priority : Bool
  execs : Execs
deriving Repr, DecidableEq

/-- `isinstance(cls.required_execs, tuple)`. -/
def Execs.isTuple : Execs → Bool
  | .tuple _ => true
  | _ => false

/-- The programs to search. -/
def Execs.toList : Execs → List Str
  | .none => []
  | .tuple l => l
  | .other l => l

/-- The dict `Builder._active`, and whether a program is found. -/
structure World where
  cache : Dict Str Bool
  found : Str → Bool

/-- The three tests (`builders/builder.py:174-210`). The requirements are a set of names. -/
def compute (found : Str → Bool) (c : Cls) : Bool :=
  let active := true
  let active := if c.requirements.contains "priority".toList && !c.priority then false else active
  let active := if c.requirements.contains "required_execs".toList && !c.execs.isTuple then false else active
  let active :=
    if c.requirements.contains "all_execs".toList && !c.execs.toList.isEmpty && !c.execs.toList.all found then false else active
  active

/-- `cls.active()` (`builders/builder.py:165-212`). -/
def active (w : World) (c : Cls) : World × Bool :=
  match w.cache.get? c.name with
  | some b => (w, b)
  | none =>
    let b := compute w.found c
    ({ w with cache := w.cache.set c.name b }, b)

/-- Programs are installed or removed, or a class is asked. -/
inductive Event
  | install (found : Str → Bool)
  | ask (c : Cls)

/-- One event. -/
def step (w : World) : Event → World
  | .install f => { w with found := f }
  | .ask c => (active w c).1

/-- A history. -/
def run (w : World) (es : List Event) : World := es.foldl step w

end Verif.BuilderActive
