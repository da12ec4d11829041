import Verif.Model.Strings
import Verif.Model.Builder

/-!
# Model of the execution of commands

Models `/repo/src/disseminate/builders/executor.py`: `run`, `runtime_success`, `runtime_error`, and the pool of threads.

The operating system is modelled as far as it matters for `run`: a process writes to two pipes, of which each holds `cap` bytes, and a
process that writes to a full pipe waits until something is read from it. Time is counted in ticks.
-/

namespace Verif.Executor

open Verif

abbrev Bytes := List UInt8

/-- What a process does: write to its output, write to its error output, or work for one tick. -/
inductive Act
  | out (b : Bytes)
  | err (b : Bytes)
  | work
deriving Repr, DecidableEq

/-- A program with its arguments: what it does until it exits, and its exit code. -/
structure Program where
  args : List Str
  acts : List Act
  code : Int
deriving Repr, DecidableEq

/-- `popen.wait(timeout=timeout)` (`executor.py:22`), with `o` and `e` in the pipes: what is in the pipes when the process exits and the
ticks that have passed, or nothing if the timeout expires. Nothing is read from the pipes meanwhile, so that a process that cannot write
stays where it is. -/
def wait (cap : Nat) : Nat → Bytes → Bytes → List Act → Option (Bytes × Bytes)
  | _, o, e, [] => some (o, e)
  | t, o, e, .out b :: l => if o.length + b.length ≤ cap then wait cap t (o ++ b) e l else none
  | t, o, e, .err b :: l => if e.length + b.length ≤ cap then wait cap t o (e ++ b) l else none
  | t, o, e, .work :: l =>
    match t with
    | 0 => none
    | t + 1 => wait cap t o e l

/-- The ticks that `popen.wait` takes: until the process exits, or the timeout. -/
def waited (cap : Nat) : Nat → Bytes → Bytes → List Act → Nat
  | _, _, _, [] => 0
  | t, o, e, .out b :: l => if o.length + b.length ≤ cap then waited cap t (o ++ b) e l else t
  | t, o, e, .err b :: l => if e.length + b.length ≤ cap then waited cap t o (e ++ b) l else t
  | t, o, e, .work :: l =>
    match t with
    | 0 => 0
    | t + 1 => waited cap t o e l + 1

/-- `PopenResult` (`executor.py:15`). -/
structure Result where
  returncode : Int
  args : List Str
  stdout : Str
  stderr : Str
deriving Repr, DecidableEq

/-- `bytes.decode('latin1')`: each byte is the character with its number. -/
def latin1 (b : Bytes) : Str := b.map fun x => Char.ofNat x.toNat

/-- `subprocess.TimeoutExpired`. -/
inductive Timeout
  | expired
deriving Repr, DecidableEq

/-- `run` (`executor.py:18-27`). Simplification: the program can be started. -/
def run (cap timeout : Nat) (p : Program) : Except Timeout Result :=
  match wait cap timeout [] [] p.acts with
  | none => .error .expired
  | some (o, e) => .ok ⟨p.code, p.args, latin1 o, latin1 e⟩

/-- `BuildError` with its fields (`executor.py:48-54`). -/
structure BuildError where
  cmd : Str
  returncode : Int
  shellOut : Str
  shellErr : Str
deriving Repr, DecidableEq

/-- `runtime_success` (`executor.py:30-33`). -/
def runtimeSuccess (r : Result) : Bool := r.returncode = 0

/-- `runtime_error` (`executor.py:36-58`) as it is called (`builder.py:272`), without the text of the message. -/
def runtimeError (r : Result) : BuildError := ⟨join " ".toList r.args, r.returncode, r.stdout, r.stderr⟩

/-- What a look at a finished command gives (`builder.py:248-272`), if a build is needed and `outExists` says whether the output
file is there. -/
inductive Report
  | done
  | missingOutfile
  | failed (e : BuildError)
  | raised
deriving Repr, DecidableEq

def report (outExists : Bool) : Except Timeout Result → Report
  | .error _ => .raised
  | .ok r =>
    if runtimeSuccess r then
      if outExists then .done else .missingOutfile
    else .failed (runtimeError r)

/-! ## The pool -/

/-- The pool of threads (`executor.py:12-13`): the commands that wait, and those that run, with the ticks they still take. `ended` are
those that have ended; the code has no such list. -/
structure Pool where
  queue : List Nat
  running : List (Nat × Nat)
  ended : List Nat

/-- Free threads, of `w`, take the first commands that wait; `d` are the ticks of the commands. -/
def Pool.fill (w : Nat) (d : Nat → Nat) (p : Pool) : Pool :=
  let k := w - p.running.length
  { p with running := p.running ++ (p.queue.take k).map (fun j => (j, d j)), queue := p.queue.drop k }

/-- `executor.submit` (`builder.py:449`). -/
def Pool.submit (w : Nat) (d : Nat → Nat) (p : Pool) (j : Nat) : Pool := Pool.fill w d { p with queue := p.queue ++ [j] }

/-- A tick: commands that have no ticks left have ended. -/
def Pool.tick (w : Nat) (d : Nat → Nat) (p : Pool) : Pool :=
  Pool.fill w d
    { p with
      running := (p.running.filter (fun r => 0 < r.2)).map (fun r => (r.1, r.2 - 1))
      ended := p.ended ++ (p.running.filter (fun r => r.2 = 0)).map (·.1) }

/-- What happens to the pool. -/
inductive Op
  | submit (j : Nat)
  | tick
deriving Repr, DecidableEq

def Pool.step (w : Nat) (d : Nat → Nat) (p : Pool) : Op → Pool
  | .submit j => p.submit w d j
  | .tick => p.tick w d

def Pool.steps (w : Nat) (d : Nat → Nat) (p : Pool) (ops : List Op) : Pool := ops.foldl (Pool.step w d) p

/-- The pool at the start. -/
def Pool.new : Pool := ⟨[], [], []⟩

end Verif.Executor
