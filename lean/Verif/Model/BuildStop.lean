import Verif.Model.Cli

/-!
# Model of a build that is interrupted

On top of `Model/BuildAdds` and `Model/Cli`. The process is killed, or an exception (`KeyboardInterrupt`) is raised, at any time: before or after each
time that a builder is asked for its status, a command is submitted, a file is written or a decision is recorded. No function of
`builders` catches exceptions. At which of these times it happens is given by the state, so that it may be any of them.

Simplifications: those of `Model/BuildAdds`. The entry of a decision is written as a whole or not at all (`diskcache` uses transactions).
A file that is partly written is one that is edited afterwards. Commands that were submitted end when the process does. Builders that are
added are in memory only, so that it makes no difference whether they still are when the process ends.
-/

namespace Verif.Build

open Verif Verif.Decider Verif.Builder

/-- In these states the process is interrupted. -/
abbrev Stop := World → Bool

/-- The process is interrupted now, or goes on with this result. -/
def Stop.after {α : Type} (stop : Stop) (x : Except Builder.Err α × World) : Except Builder.Err α × World :=
  if stop x.2 then (.error .exception, x.2) else x

/-- `status` of a step (`builders/builder.py:213-275`): it may be interrupted before it, when commands have ended and after it. -/
def Project.stepStatusStop (P : Project) (stop : Stop) (i : Nat) (s : Step) (w : World) : Except Builder.Err Status × World :=
  if stop w then (.error .exception, w)
  else if stop (P.tick w) then (.error .exception, P.tick w)
  else stop.after (P.stepStatus i s w)

/-- A step is run (`builders/copy.py:54-70`, `builders/save_temp.py:45-59`, `builders/jinja_render.py:239-266`,
`builders/builder.py:439-450`): it may be interrupted when the file is written and nothing is recorded, and afterwards. -/
def Project.runStop (P : Project) (stop : Stop) (i : Nat) (s : Step) (w : World) : Except Builder.Err Unit × World :=
  if s.instant = true ∧ stop { w with fs := put w.fs s.out (some (s.result w.fs)) } then
    (.error .exception, { w with fs := put w.fs s.out (some (s.result w.fs)) })
  else stop.after (.ok (), P.run i s w)

/-- `build` of a step (`builders/builder.py:452-483`, `builders/copy.py:54-70`). -/
def Project.stepBuildStop (P : Project) (stop : Stop) (i : Nat) (s : Step) (w : World) : Except Builder.Err Unit × World :=
  match P.stepStatusStop stop i s w with
  | (.error e, w) => (.error e, w)
  | (.ok st, w) =>
    match if st = .building ∨ st = .ready then P.runStop stop i s w else (.ok (), w) with
    | (.error e, w) => (.error e, w)
    | (.ok _, w) =>
      match P.stepStatusStop stop i s w with
      | (.error e, w) => (.error e, w)
      | (.ok _, w) => (.ok (), w)

/-- `build` of a step, which adds builders if it is run (`builders/jinja_render.py:239-266`). -/
def Project.stepBuildAddsStop (P : Project) (a : Adds) (stop : Stop) (i : Nat) (s : Step) (w : World) : Except Builder.Err Unit × World :=
  match P.stepBuildStop stop i s w with
  | (r, w') => (r, if w'.runs i = w.runs i then w' else a.add i w')

/-- `build_needed(reset=True)` of a step (`builders/builder.py:277-287`). -/
def Project.stepRecordStop (P : Project) (stop : Stop) (s : Step) (w : World) : Except Builder.Err Bool × World :=
  if stop w then (.error .exception, w)
  else match P.stepRecord s w with
    | none => (.error .exception, w)
    | some (b, w) => stop.after (.ok b, w)

/-- The builders, nested up to a depth. -/
def Project.opsStop (P : Project) (a : Adds) (stop : Stop) : Nat → Ops
  | 0 => ⟨fun _ w => (.error .exception, w), fun _ w => (.error .exception, w), fun _ w => (.error .exception, w)⟩
  | k + 1 =>
    { status := fun n w => match P.node n with
        | none => (.error .exception, w)
        | some (.step s) => P.stepStatusStop stop n s w
        | some (.group g) => onSubs n (compStatus (P.subsOf (P.opsStop a stop k) n g)) w
      build := fun n w => match P.node n with
        | none => (.error .exception, w)
        | some (.step s) => P.stepBuildAddsStop a stop n s w
        | some (.group g) => match onSubs n (Builder.build (P.subsOf (P.opsStop a stop k) n g) g.parallel g.clear) w with
          | (.error e, w) => (.error e, w)
          | (.ok _, w) => (.ok (), w)
      record := fun n w => match P.node n with
        | none => (.error .exception, w)
        | some (.step s) => P.stepRecordStop stop s w
        | some (.group g) => P.groupRecord (P.opsStop a stop k) n g w }

/-- The loop of a build, with these builders (`target_builders/receivers.py:118-136`). -/
def buildOn (O : Ops) (root : Nat) : Nat → World → Option (Except Builder.Err Status) × World
  | 0, w => (none, w)
  | rounds + 1, w =>
    match O.status root w with
    | (.error e, w) => (some (.error e), w)
    | (.ok st, w) =>
      if st = .building ∨ st = .ready then
        match O.build root w with
        | (.error e, w) => (some (.error e), w)
        | (.ok _, w) => buildOn O root rounds w
      else
        match O.status root w with
        | (.error e, w) => (some (.error e), w)
        | (.ok st, w) => (some (.ok st), w)

/-- The build of a document that may be interrupted (`target_builders/receivers.py:118-136`). -/
def Project.buildStop (P : Project) (a : Adds) (stop : Stop) (depth root rounds : Nat) (w : World) :
    Option (Except Builder.Err Status) × World := buildOn (P.opsStop a stop depth) root rounds w

/-- The loop of the command for one project, with builders `O1` and sub-builders of the root builder `O` (`cli/build.py:38-43`). -/
def Project.cliLoopOn (P : Project) (O O1 : Ops) (root : Nat) : Nat → Status → World → Option (Except Builder.Err Status) × World
  | 0, _, w => (none, w)
  | rounds + 1, st, w =>
    if st = .ready ∨ st = .building then
      match P.node root with
      | some (.group g) =>
        match onSubs root (Builder.build (P.subsOf O root g) g.parallel g.clear) w with
        | (.error e, w) => (some (.error e), w)
        | (.ok st, w) => P.cliLoopOn O O1 root rounds st w
      | _ => (some (.error .exception), w)
    else
      match O1.status root w with
      | (.error e, w) => (some (.error e), w)
      | (.ok st, w) => (some (.ok st), w)

/-- The build of one project by the command, which may be interrupted (`cli/build.py:37-43`). -/
def Project.cliStop (P : Project) (a : Adds) (stop : Stop) (depth root rounds : Nat) (w : World) :
    Option (Except Builder.Err Status) × World :=
  match (P.opsStop a stop (depth + 1)).status root w with
  | (.error e, w) => (some (.error e), w)
  | (.ok st, w) => P.cliLoopOn (P.opsStop a stop depth) (P.opsStop a stop (depth + 1)) root rounds st w

/-- The loop of the command over the environments, which may be interrupted (`cli/build.py:28-43`): how it ends, and what is on the disk
then. -/
def buildAllStop (stop : Stop) (depth rounds : Nat) : List Env → Disk → End × Disk
  | [], d => (.finished, d)
  | e :: es, d =>
    match e.project.cliStop e.adds stop depth e.root rounds (e.at d) with
    | (none, w) => (.running, e.left d w)
    | (some (.error x), w) => (.raised x, e.left d w)
    | (some (.ok _), w) => buildAllStop stop depth rounds es (e.left d w)

end Verif.Build
