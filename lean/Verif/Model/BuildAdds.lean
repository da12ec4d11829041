import Verif.Model.Build

/-!
# Model of a build in which builders are added: images

The tags of a document are formatted while its page is rendered (`builders/jinja_render.py:239-266`), and the tags of images add a builder
for their file to the parallel builder of the target (`tags/img.py:158-198`, `target_builders/receivers.py:14-52`,
`parallel_builder.py:93`; `Model/AddFile` has which one). So builders are added during a build, and only if the page is rendered in it.

Simplifications: those of `Model/Build`. What a page adds is given; each group gets builders from one page.
-/

namespace Verif.Build

open Verif Verif.Decider Verif.Builder

/-- For a group, the step of the page whose rendering adds builders to it, and these. -/
abbrev Adds := Nat → Option (Nat × List Nat)

/-- The builders that the step `i` adds to the group `n`. -/
def Adds.of (a : Adds) (n i : Nat) : List Nat :=
  match a n with
  | some (p, l) => if p = i then l else []
  | none => []

/-- `self.subbuilders.append(builder)`, for all that the step `i` adds (`parallel_builder.py:93`). -/
def Adds.add (a : Adds) (i : Nat) (w : World) : World := { w with subs := fun n => w.subs n ++ a.of n i }

/-- `build` of a step, which adds builders if it is run (`builders/jinja_render.py:239-266`). -/
def Project.stepBuildAdds (P : Project) (a : Adds) (i : Nat) (s : Step) (w : World) : Except Builder.Err Unit × World :=
  match P.stepBuild i s w with
  | (r, w') => (r, if w'.runs i = w.runs i then w' else a.add i w')

/-- The builders, nested up to a depth. -/
def Project.opsAdds (P : Project) (a : Adds) : Nat → Ops
  | 0 => ⟨fun _ w => (.error .exception, w), fun _ w => (.error .exception, w), fun _ w => (.error .exception, w)⟩
  | k + 1 =>
    { status := fun n w => match P.node n with
        | none => (.error .exception, w)
        | some (.step s) => P.stepStatus n s w
        | some (.group g) => onSubs n (compStatus (P.subsOf (P.opsAdds a k) n g)) w
      build := fun n w => match P.node n with
        | none => (.error .exception, w)
        | some (.step s) => P.stepBuildAdds a n s w
        | some (.group g) => match onSubs n (Builder.build (P.subsOf (P.opsAdds a k) n g) g.parallel g.clear) w with
          | (.error e, w) => (.error e, w)
          | (.ok _, w) => (.ok (), w)
      record := fun n w => match P.node n with
        | none => (.error .exception, w)
        | some (.step s) => match P.stepRecord s w with
          | none => (.error .exception, w)
          | some (b, w) => (.ok b, w)
        | some (.group g) => P.groupRecord (P.opsAdds a k) n g w }

/-- The build of a document (`target_builders/receivers.py:118-136`). -/
def Project.buildAdds (P : Project) (a : Adds) (depth root : Nat) : Nat → World → Option (Except Builder.Err Status) × World
  | 0, w => (none, w)
  | rounds + 1, w =>
    match (P.opsAdds a depth).status root w with
    | (.error e, w) => (some (.error e), w)
    | (.ok st, w) =>
      if st = .building ∨ st = .ready then
        match (P.opsAdds a depth).build root w with
        | (.error e, w) => (some (.error e), w)
        | (.ok _, w) => P.buildAdds a depth root rounds w
      else
        match (P.opsAdds a depth).status root w with
        | (.error e, w) => (some (.error e), w)
        | (.ok st, w) => (some (.ok st), w)

end Verif.Build
