import Verif.Model.Executor

/-! # Specification vocabulary for the execution of commands -/

namespace Verif.Executor.Spec

open Verif Verif.Executor

/-- All that a program writes to its output. -/
def output (p : Program) : Bytes := p.acts.flatMap fun | .out b => b | _ => []

/-- All that a program writes to its error output. -/
def errors (p : Program) : Bytes := p.acts.flatMap fun | .err b => b | _ => []

/-- The ticks that a program works. -/
def ticks (p : Program) : Nat := p.acts.count .work

/-- The text of bytes in latin 1: as many characters, with the same numbers. -/
def Latin1 (b : Bytes) (s : Str) : Prop := s.map Char.toNat = b.map UInt8.toNat

/-- The commands that have been handed to the pool. -/
def submitted (ops : List Op) : List Nat := ops.filterMap fun | .submit j => some j | .tick => none

/-- The ticks that have passed. -/
def passed (ops : List Op) : Nat := ops.count .tick

end Verif.Executor.Spec
