import Verif.Model.Builder

/-!
# Model of the build of a document: `builders/target_builders/receivers.py`, `builders/environment.py` and nested builders

`Model/Builder` has a single builder and a composite builder on top of any sub-builders. Here they are put together: the builders of a
project are numbered, composite builders have lists of numbers of sub-builders, so that a builder can be part of several others (as the
tex builder of a document that lists 'tex' and 'pdf'), and the steps read and write files.

Simplifications:
- A command reads its inputs when it starts, and writes its output when it ends with success; otherwise it writes nothing. What it writes
  is a function (`tool`) of the contents of its parameters.
- A step with `instant` is a `Copy`, a `SaveTempFile` or a `JinjaRender`, which write their file in `build`.
- The parameters, actions and output paths of builders do not change during a build, and the document is not reloaded by the `build` of
  target builders (`target_builders/target_builder.py:164-174`): no source is edited during a build.
- Only `complete=True` is modelled. The root builder is one of the numbered builders; `create_root_builder`
  (`builders/environment.py:200-221`) makes a new one for each build.
- Commands end at any times (`ends`): some may before each time a status of a step is asked for.
-/

namespace Verif.Build

open Verif Verif.Decider Verif.Builder

/-- A builder that makes a file (`builders/builder.py:50-160`). -/
structure Step where
  parameters : List Item
  action : Bytes
  out : Str
  tool : List Bytes → Bytes
  instant : Bool

/-- A composite builder (`composite_builder.py:4-31`): whether it is a `ParallelBuilder` or a `SequentialBuilder`, whether finished
builders are removed (`clear_done`), and the inputs and the output of its own decision (`builders/builder.py:277-287`), which only a
`SequentialBuilder` has. -/
structure Group where
  parallel : Bool
  clear : Bool
  inputs : List Item
  output : Item

inductive Node
  | step (s : Step)
  | group (g : Group)

/-- The builders, and which commands end, and how, at what time. -/
structure Project where
  cfg : Cfg
  node : Nat → Option Node
  ends : Nat → List (Nat × Future)

/-- The state: the files, the database of the decider, the steps with the output their commands are about to write and how often they
were run, the sub-builders of composite builders, and the time. The code does not count runs. -/
structure World where
  fs : FS
  db : Dict Bytes Bytes
  leaf : Nat → Leaf
  pending : Nat → Bytes
  runs : Nat → Nat
  subs : Nat → List Nat
  clock : Nat

/-- An entry is changed. -/
def put {α β : Type} [DecidableEq α] (f : α → β) (a : α) (b : β) : α → β := fun x => if x = a then b else f x

/-- The inputs of the decision (`builders/builder.py:282-284`). -/
def Step.inputs (s : Step) : List Item := s.parameters ++ [.other s.action]

/-- The content of a parameter. -/
def content (fs : FS) : Item → Bytes
  | .path p => (fs p).getD []
  | .other b => b

/-- What a step makes from these files. -/
def Step.result (s : Step) (fs : FS) : Bytes := s.tool (s.parameters.map (content fs))

/-- A command ends (`builders/executor.py:17-26`). -/
def Project.end_ (P : Project) (w : World) (e : Nat × Future) : World :=
  if (w.leaf e.1).future = some .running then
    match P.node e.1 with
    | some (.step s) =>
      { w with leaf := put w.leaf e.1 { w.leaf e.1 with future := some e.2 },
               fs := if e.2 = .ended 0 then put w.fs s.out (some (w.pending e.1)) else w.fs }
    | _ => w
  else w

/-- Time passes. -/
def Project.tick (P : Project) (w : World) : World :=
  { (P.ends w.clock).foldl P.end_ w with clock := w.clock + 1 }

/-- `status` of a step (`builders/builder.py:213-275`, `builders/copy.py:41-52`). -/
def Project.stepStatus (P : Project) (i : Nat) (s : Step) (w : World) : Except Builder.Err Status × World :=
  let w := P.tick w
  match (w.leaf i).statusIn P.cfg w.fs w.db s.parameters s.action s.out with
  | none => (.error .exception, w)
  | some (r, l, db) => (r, { w with leaf := put w.leaf i l, db := db })

/-- `build_needed(reset=True)` of a step (`builders/builder.py:277-287`). -/
def Project.stepRecord (P : Project) (s : Step) (w : World) : Option (Bool × World) :=
  (P.cfg.buildNeeded w.fs w.db s.inputs (.path s.out) true).map fun (b, db) => (b, { w with db := db })

/-- A step is run: the file is written and recorded (`builders/copy.py:54-70`, `builders/save_temp.py:45-59`,
`builders/jinja_render.py:239-266`), or the command is submitted (`run_cmd`, `builders/builder.py:439-450`). -/
def Project.run (P : Project) (i : Nat) (s : Step) (w : World) : World :=
  if s.instant then
    let w := { w with fs := put w.fs s.out (some (s.result w.fs)), runs := put w.runs i (w.runs i + 1) }
    ((P.stepRecord s w).map Prod.snd).getD w
  else match (w.leaf i).future with
    | none => { w with leaf := put w.leaf i (w.leaf i).runCmd, pending := put w.pending i (s.result w.fs),
                       runs := put w.runs i (w.runs i + 1) }
    | some _ => w

/-- `build` of a step (`builders/builder.py:452-483`, `builders/copy.py:54-70`). -/
def Project.stepBuild (P : Project) (i : Nat) (s : Step) (w : World) : Except Builder.Err Unit × World :=
  match P.stepStatus i s w with
  | (.error e, w) => (.error e, w)
  | (.ok st, w) =>
    let w := if st = .building ∨ st = .ready then P.run i s w else w
    match P.stepStatus i s w with
    | (.error e, w) => (.error e, w)
    | (.ok _, w) => (.ok (), w)

/-- What builders do: `status`, `build` and `build_needed(reset=True)`. -/
structure Ops where
  status : Nat → World → Except Builder.Err Status × World
  build : Nat → World → Except Builder.Err Unit × World
  record : Nat → World → Except Builder.Err Bool × World

/-- `any(sb.build_needed(reset=reset) for sb in self.subbuilders)` (`parallel_builder.py:13`). -/
def anyRecord (O : Ops) : List Nat → World → Except Builder.Err Bool × World
  | [], w => (.ok false, w)
  | m :: ms, w =>
    match O.record m w with
    | (.error e, w) => (.error e, w)
    | (.ok true, w) => (.ok true, w)
    | (.ok false, w) => anyRecord O ms w

/-- `build_needed(reset=True)` of a composite builder (`parallel_builder.py:12-13`, `builders/builder.py:277-287`). -/
def Project.groupRecord (P : Project) (O : Ops) (n : Nat) (g : Group) (w : World) : Except Builder.Err Bool × World :=
  if g.parallel then anyRecord O (w.subs n) w
  else match P.cfg.buildNeeded w.fs w.db g.inputs g.output true with
    | none => (.error .exception, w)
    | some (b, db) => (.ok b, { w with db := db })

/-- The sub-builders of a composite builder, as it sees them. -/
def Project.subsOf (P : Project) (O : Ops) (n : Nat) (g : Group) : Subs World where
  status := O.status
  build := O.build
  record w := match P.groupRecord O n g w with
    | (.error e, w) => (.error e, w)
    | (.ok _, w) => (.ok (), w)

/-- Something done with the sub-builders of a composite builder. -/
def onSubs {α : Type} (n : Nat) (x : M World α) (w : World) : Except Builder.Err α × World :=
  ((x ⟨w.subs n, w⟩).1, { (x ⟨w.subs n, w⟩).2.1.w with subs := put (x ⟨w.subs n, w⟩).2.1.w.subs n (x ⟨w.subs n, w⟩).2.1.subs })

/-- The builders, nested up to a depth. -/
def Project.ops (P : Project) : Nat → Ops
  | 0 => ⟨fun _ w => (.error .exception, w), fun _ w => (.error .exception, w), fun _ w => (.error .exception, w)⟩
  | k + 1 =>
    { status := fun n w => match P.node n with
        | none => (.error .exception, w)
        | some (.step s) => P.stepStatus n s w
        | some (.group g) => onSubs n (compStatus (P.subsOf (P.ops k) n g)) w
      build := fun n w => match P.node n with
        | none => (.error .exception, w)
        | some (.step s) => P.stepBuild n s w
        | some (.group g) => match onSubs n (Builder.build (P.subsOf (P.ops k) n g) g.parallel g.clear) w with
          | (.error e, w) => (.error e, w)
          | (.ok _, w) => (.ok (), w)
      record := fun n w => match P.node n with
        | none => (.error .exception, w)
        | some (.step s) => match P.stepRecord s w with
          | none => (.error .exception, w)
          | some (b, w) => (.ok b, w)
        | some (.group g) => P.groupRecord (P.ops k) n g w }

/-- The build of a document (`target_builders/receivers.py:118-136`), for its root builder: while its
status is 'building' or 'ready', `build`. `none` if that has not ended after `rounds` rounds. -/
def Project.build (P : Project) (depth root : Nat) : Nat → World → Option (Except Builder.Err Status) × World
  | 0, w => (none, w)
  | rounds + 1, w =>
    match (P.ops depth).status root w with
    | (.error e, w) => (some (.error e), w)
    | (.ok st, w) =>
      if st = .building ∨ st = .ready then
        match (P.ops depth).build root w with
        | (.error e, w) => (some (.error e), w)
        | (.ok _, w) => P.build depth root rounds w
      else
        match (P.ops depth).status root w with
        | (.error e, w) => (some (.error e), w)
        | (.ok st, w) => (some (.ok st), w)

end Verif.Build
