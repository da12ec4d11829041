import Verif.Model.BuildAdds

/-!
# Model of the command `build`: `cli/build.py`, `cli/options.py`

On top of `Model/BuildAdds`. The projects have their own builders and share the files; those with one directory for cached files share a
database (`builders/deciders/md5decider.py:75-85`, `builders/environment.py:86-94`).

Simplifications: no progress is printed (`--progress`). The environments are given: `Model/Paths` has how root documents are found
(`builders/environment.py:162-198`). A loop that has not ended after `rounds` rounds is given up.
-/

namespace Verif.Build

open Verif Verif.Decider Verif.Builder

/-- `root_builder.build(complete=False)`, with its result (`cli/build.py:39`). -/
def Project.rootBuild (P : Project) (a : Adds) (depth root : Nat) (w : World) : Except Builder.Err Status × World :=
  match P.node root with
  | some (.group g) => onSubs root (Builder.build (P.subsOf (P.opsAdds a depth) root g) g.parallel g.clear) w
  | _ => (.error .exception, w)

/-- The loop of the command for one project, and the status that is printed (`cli/build.py:38-43`). -/
def Project.cliLoop (P : Project) (a : Adds) (depth root : Nat) : Nat → Status → World → Option (Except Builder.Err Status) × World
  | 0, _, w => (none, w)
  | rounds + 1, st, w =>
    if st = .ready ∨ st = .building then
      match P.rootBuild a depth root w with
      | (.error e, w) => (some (.error e), w)
      | (.ok st, w) => P.cliLoop a depth root rounds st w
    else
      match (P.opsAdds a (depth + 1)).status root w with
      | (.error e, w) => (some (.error e), w)
      | (.ok st, w) => (some (.ok st), w)

/-- The build of one project (`cli/build.py:37-43`). -/
def Project.buildCli (P : Project) (a : Adds) (depth root rounds : Nat) (w : World) : Option (Except Builder.Err Status) × World :=
  match (P.opsAdds a (depth + 1)).status root w with
  | (.error e, w) => (some (.error e), w)
  | (.ok st, w) => P.cliLoop a depth root rounds st w

/-- A project: the builders of its environment, those that pages add, the number of the root builder, the path of its database, and the
state when it was made (`builders/environment.py:47-81`), but for the files and the database. -/
structure Env where
  project : Project
  adds : Adds
  root : Nat
  cache : Str
  made : World

/-- What the projects share: the files, and the databases by their paths. -/
structure Disk where
  fs : FS
  dbs : Str → Dict Bytes Bytes

/-- The state of an environment with these files and databases. -/
def Env.at (e : Env) (d : Disk) : World := { e.made with fs := d.fs, db := d.dbs e.cache }

/-- What is on the disk after the state `w` of an environment. -/
def Env.left (e : Env) (d : Disk) (w : World) : Disk := ⟨w.fs, put d.dbs e.cache w.db⟩

/-- How the command ends. -/
inductive End
  | finished
  | raised (e : Builder.Err)
  | running

/-- The loop over the environments (`cli/build.py:28-43`): the printed statuses with the states of the projects, how it ends, and what is
on the disk then. -/
def buildAll (depth rounds : Nat) : List Env → Disk → List (Status × World) × End × Disk
  | [], d => ([], .finished, d)
  | e :: es, d =>
    match e.project.buildCli e.adds depth e.root rounds (e.at d) with
    | (none, w) => ([], .running, e.left d w)
    | (some (.error x), w) => ([], .raised x, e.left d w)
    | (some (.ok st), w) =>
      match buildAll depth rounds es (e.left d w) with
      | (l, x, d) => ((st, w) :: l, x, d)

/-- The command (`cli/build.py:17-43`): `none` if the parameters are wrong (`check_out_dir`, `cli/options.py:37-48`). -/
def buildCommand (depth rounds : Nat) (outDir : Bool) (es : List Env) (d : Disk) : Option (List (Status × World) × End × Disk) :=
  if es.length > 1 ∧ outDir = true then none else some (buildAll depth rounds es d)

end Verif.Build
