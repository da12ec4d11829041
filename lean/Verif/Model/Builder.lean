import Verif.Model.Decider

/-!
# Model of `builders/builder.py` and `builders/composite_builders`

A step of a build runs in a process that ends at any time and in any way, and files change in any way. A single builder
is modelled as a state machine whose answers depend on what it sees of the world (`Seen`), which is arbitrary
at each call. A composite builder is modelled on top of *any* sub-builders: these are given by what their
`status` and `build` do to a world of an arbitrary type, so that a schedule of completions, a nested
composite builder or a clock can be part of that world.
-/

namespace Verif.Builder

open Verif

/-- The statuses of a builder (`builders/builder.py:213-227`). "inactive" is left out: `self.active` is a bound
method and always true (`builders/builder.py:227-230`). -/
inductive Status
  | ready | missingParameters | missingOutfile | cancelled | building | done
deriving Repr, DecidableEq

/-- Exceptions: that of a failed command and that of the future. -/
inductive Err
  | buildError | exception
deriving Repr, DecidableEq

/-! ### A single builder -/

/-- A `concurrent.futures.Future` for a process. -/
inductive Future
  | running
  | cancelled
  | raised
  | ended (returncode : Int)
deriving Repr, DecidableEq

/-- A builder with a command (`builders/builder.py:106-130`): the future, and whether the parameters were once found
to be complete (`_missing_parameters`). `submitted` counts the submissions to the executor; the code has no
such counter. -/
structure Leaf where
  future : Option Future
  parametersFound : Bool
  submitted : Nat
deriving Repr, DecidableEq

/-- A new builder. -/
def Leaf.new : Leaf := ⟨none, false, 0⟩

/-- What a builder sees of the world: no parameters or a missing one, the answer of the decider, and the output file. -/
structure Seen where
  missing : Bool
  needed : Bool
  outExists : Bool
deriving Repr, DecidableEq

/-- `missing_parameters` (`builders/builder.py:303-323`). -/
def Leaf.missingParameters (l : Leaf) (s : Seen) : Bool × Leaf :=
  if l.parametersFound then (false, l)
  else if s.missing then (true, l)
  else (false, { l with parametersFound := true })

/-- `Builder.status` (`builders/builder.py:213-275`): the status or exception, the builder afterwards, and whether
the build was recorded with `build_needed(reset=True)`. -/
def Leaf.status (l : Leaf) (s : Seen) : Except Err Status × Leaf × Bool :=
  match l.missingParameters s with
  | (true, l) => (.ok .missingParameters, l, false)
  | (false, l) =>
    if s.needed = false then (.ok .done, l, false)
    else match l.future with
      | some .running => (.ok .building, l, false)
      | some .cancelled => (.ok .cancelled, l, false)
      | some .raised => (.error .exception, l, false)
      | some (.ended rc) =>
        if rc = 0 then
          if s.outExists then (.ok .done, l, true) else (.ok .missingOutfile, l, false)
        else (.error .buildError, l, false)
      | none => (.ok .ready, l, false)

/-- `run_cmd` (`builders/builder.py:439-450`) for a builder whose action is a command. -/
def Leaf.runCmd (l : Leaf) : Leaf :=
  match l.future with
  | none => { l with future := some .running, submitted := l.submitted + 1 }
  | some _ => l

/-- One round of `build` (`builders/builder.py:475-482`): look at the status and run the command if that is
'building' or 'ready'. `build(complete=True)` repeats it, `build()` does it once. -/
def Leaf.round (l : Leaf) (s : Seen) : Except Err Status × Leaf × Bool :=
  match l.status s with
  | (.ok .building, l, r) => (.ok .building, l.runCmd, r)
  | (.ok .ready, l, r) => (.ok .ready, l.runCmd, r)
  | out => out

/-- What happens to a builder: its status is asked for, a round of a build is run, or its process ends (`f` is not
`running`); the process of a builder can end only while it runs. -/
inductive Op
  | status (s : Seen)
  | round (s : Seen)
  | ends (f : Future)

def Leaf.step (l : Leaf) : Op → Leaf
  | .status s => (l.status s).2.1
  | .round s => (l.round s).2.1
  | .ends f => if l.future = some .running then { l with future := some f } else l

def Leaf.run (l : Leaf) (ops : List Op) : Leaf := ops.foldl Leaf.step l

/-! ### A builder in a directory -/

/-- What a builder with these inputs and output sees (`builders/builder.py:213-287`): `hasattr(i, 'exists')`
is true of paths, and the action is an input of the decision. `none` if there is nothing to decide on. -/
def see (c : Decider.Cfg) (fs : Decider.FS) (db : Dict Decider.Bytes Decider.Bytes) (parameters : List Decider.Item)
    (action : Decider.Bytes) (out : Str) : Option Seen :=
  (c.buildNeeded fs db (parameters ++ [.other action]) (.path out) false).map fun (n, _) =>
    ⟨parameters.isEmpty || parameters.any (Decider.missing fs), n, (fs out).isSome⟩

/-- `status` of a builder in a directory, with what it records. -/
def Leaf.statusIn (l : Leaf) (c : Decider.Cfg) (fs : Decider.FS) (db : Dict Decider.Bytes Decider.Bytes)
    (parameters : List Decider.Item) (action : Decider.Bytes) (out : Str) :
    Option (Except Err Status × Leaf × Dict Decider.Bytes Decider.Bytes) :=
  (see c fs db parameters action out).bind fun s =>
    let (st, l, record) := l.status s
    if record then
      (c.buildNeeded fs db (parameters ++ [.other action]) (.path out) true).map fun (_, db) => (st, l, db)
    else some (st, l, db)

/-! ### Composite builders -/

/-- What a composite builder does, as far as its sub-builders can tell: it asks for the status of one
and gets an answer, or it builds one. -/
inductive Ev
  | polled (i : Nat) (r : Except Err Status)
  | built (i : Nat)

/-- The sub-builders, which are named by numbers: what their `status` and `build` do, and what `build_needed(reset=True)`
of the composite builder does. -/
structure Subs (W : Type) where
  status : Nat → W → Except Err Status × W
  build : Nat → W → Except Err Unit × W
  record : W → Except Err Unit × W

/-- The state: the sub-builders that are left, and the world. -/
structure State (W : Type) where
  subs : List Nat
  w : W

/-- A computation on the state, with its events. An exception ends it. -/
def M (W α : Type) := State W → Except Err α × State W × List Ev

instance (W : Type) : Monad (M W) where
  pure a := fun s => (.ok a, s, [])
  bind x f := fun s =>
    match x s with
    | (.ok a, s', t) => ((f a s').1, (f a s').2.1, t ++ (f a s').2.2)
    | (.error e, s', t) => (.error e, s', t)

variable {W : Type}

/-- `builder.status` of a sub-builder. -/
def poll (S : Subs W) (i : Nat) : M W Status := fun s =>
  ((S.status i s.w).1, { s with w := (S.status i s.w).2 }, [.polled i (S.status i s.w).1])

/-- `builder.build()` of a sub-builder. -/
def buildSub (S : Subs W) (i : Nat) : M W Unit := fun s =>
  ((S.build i s.w).1, { s with w := (S.build i s.w).2 }, [.built i])

/-- `self.build_needed(reset=True)` of the composite builder (`composite_builder.py:105`). -/
def record (S : Subs W) : M W Unit := fun s => ((S.record s.w).1, { s with w := (S.record s.w).2 }, [])

def getSubs : M W (List Nat) := fun s => (.ok s.subs, s, [])

/-- `self.subbuilders.remove(subbuilder)`. -/
def remove (i : Nat) : M W Unit := fun s => (.ok (), { s with subs := s.subs.erase i }, [])

/-- `[sb.status for sb in self.subbuilders]` (`composite_builder.py:43`). -/
def pollAll (S : Subs W) : List Nat → M W (List Status)
  | [] => pure []
  | i :: is => do
    let st ← poll S i
    let sts ← pollAll S is
    pure (st :: sts)

/-- The status given by those of the sub-builders (`composite_builder.py:44-48`). -/
def combine (sts : List Status) : Status :=
  match sts.filter (· ≠ .done) with
  | [] => .done
  | st :: _ => st

/-- `CompositeBuilder.status` (`composite_builder.py:41-48`). -/
def compStatus (S : Subs W) : M W Status := do
  let subs ← getSubs
  let sts ← pollAll S subs
  pure (combine sts)

/-- `run_build_once` (`composite_builder.py:64-93`). -/
def runOnce (S : Subs W) (parallel : Bool) : List Nat → M W Unit
  | [] => pure ()
  | i :: is => do
    let st ← poll S i
    match st with
    | .done => runOnce S parallel is
    | .building => if parallel then runOnce S parallel is else pure ()
    | .ready => do
      buildSub S i
      if parallel then runOnce S parallel is else pure ()
    | _ => pure ()

/-- The removal of finished builders (`composite_builder.py:107-111`). -/
def clearDone (S : Subs W) : List Nat → M W Unit
  | [] => pure ()
  | i :: is => do
    let st ← poll S i
    if st = .done then remove i
    clearDone S is

/-- The end of `build` (`composite_builder.py:100-113`). -/
def finish (S : Subs W) (clear : Bool) : M W Status := do
  let st ← compStatus S
  if st = .done then record S
  if clear then
    let subs ← getSubs
    clearDone S subs
  pure st

/-- `build()` of a composite builder (`composite_builder.py:63-113`). -/
def build (S : Subs W) (parallel clear : Bool) : M W Status := do
  let st ← compStatus S
  if st = .building ∨ st = .ready then
    let subs ← getSubs
    runOnce S parallel subs
  finish S clear

/-- `build(complete=True)` (`composite_builder.py:95-97`); `none` if the loop has not ended after `fuel` rounds. -/
def buildComplete (S : Subs W) (parallel clear : Bool) : Nat → M W (Option Status)
  | 0 => pure none
  | fuel + 1 => do
    let st ← compStatus S
    if st = .building ∨ st = .ready then do
      let subs ← getSubs
      runOnce S parallel subs
      buildComplete S parallel clear fuel
    else do
      let st ← finish S clear
      pure (some st)

/-- What is done to a composite builder by others: its status is asked for, it is built, or the world changes. -/
inductive Call (W : Type)
  | status
  | build
  | complete (fuel : Nat)
  | world (f : W → W)

/-- The state after a call, and its events. -/
def call (S : Subs W) (parallel clear : Bool) (s : State W) : Call W → State W × List Ev
  | .status => (compStatus S s).2
  | .build => (build S parallel clear s).2
  | .complete fuel => (buildComplete S parallel clear fuel s).2
  | .world f => ({ s with w := f s.w }, [])

/-- A history of a composite builder. -/
def history (S : Subs W) (parallel clear : Bool) : State W → List (Call W) → State W × List Ev
  | s, [] => (s, [])
  | s, c :: cs =>
    let (s', t) := call S parallel clear s c
    let (s'', t') := history S parallel clear s' cs
    (s'', t ++ t')

/-! ### The choice of a builder -/

/-- A builder class, as far as `find_builder_cls` looks at it. -/
structure Cls where
  name : Str
  available : Bool
  active : Bool
  inExt : Str
  outExt : Str
  priority : Int
deriving Repr, DecidableEq

/-- The builders by extensions (`builders/builder.py:506-523`). -/
def register (d : Dict (Str × Str) Cls) (c : Cls) : Dict (Str × Str) Cls :=
  if c.available = false ∨ c.active = false then d
  else match d.get? (c.inExt, c.outExt) with
    | none => d.set (c.inExt, c.outExt) c
    | some old => if old.priority < c.priority then d.set (c.inExt, c.outExt) c else d

def registry (clss : List Cls) : Dict (Str × Str) Cls := clss.foldl register []

/-- Results of `find_builder_cls`: a class, nothing (a `BuildError`, or `None`), or a `KeyError` for the copy builder. -/
inductive Found
  | cls (c : Cls)
  | nothing
  | keyError
deriving Repr, DecidableEq

/-- The first of the extensions that a builder exists for. -/
def firstExt (reg : Dict (Str × Str) Cls) (inExt : Str) : List Str → Option Cls
  | [] => none
  | e :: es => match reg.get? (inExt, e) with
    | some c => some c
    | none => firstExt reg inExt es

/-- `find_builder_cls` (`builders/builder.py:485-550`); `tracked` is `settings.tracked_deps`.
Simplification: extensions are texts, `None` is spelled as the empty text. -/
def findBuilderCls (tracked : Dict Str (List Str)) (clss : List Cls) (inExt outExt : Str) (target : Option Str) : Found :=
  let reg := registry clss
  match (if target = none then reg.get? (inExt, outExt) else none) with
  | some c => .cls c
  | none =>
    match target with
    | none => .nothing
    | some t =>
      let t := if t.head? = some '.' then t else '.' :: t
      match tracked.get? t with
      | none => .nothing
      | some exts =>
        if inExt ∈ exts then
          match reg.get? (".*".toList, ".*".toList) with
          | some c => .cls c
          | none => .keyError
        else match firstExt reg inExt exts with
          | some c => .cls c
          | none => .nothing

end Verif.Builder
