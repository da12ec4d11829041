import Verif.Model.Build

/-!
# Model of the build of an epub: `builders/xhtml2epub.py`, `builders/target_builders/epub_builder.py`

The builder of an epub is a sequence: the target builders of the xhtml pages, the builder of the table of contents, `XHtml2Epub` and a
copy (`epub_builder.py:128-165`). `XHtml2Epub` is a `SequentialBuilder`, whose single sub-builder renders the package file
`content.opf`; its `build` also renders the package file again and writes the archive (`xhtml2epub.py:152-199`). Its `status` is that of
a `SequentialBuilder`, which only looks at the sub-builders.

Simplifications: those of `Model/Build`. The files that `scan_parameters` finds (`xhtml2epub.py:157`) are among the parameters of the
archive from the start. If a file is missing, the archive is not changed; in the code, it has the files before that one. The archive is
recorded with the package file as one more input (in the code without it).
-/

namespace Verif.Build

open Verif Verif.Decider Verif.Builder

/-- An `XHtml2Epub` (`xhtml2epub.py:17-56`): the number of the builder of its package file, and how the archive is made. The archive is
no builder of its own: its `Step` has the parameters, the action, the output path and what is written (`Model/Epub` has what that is). -/
structure Pack where
  opf : Nat
  archive : Step

/-- For a builder that is an `XHtml2Epub`, what it packs. -/
abbrev Packs := Nat → Option Pack

/-- A file is written and recorded (`jinja_render.py:242-259`, `xhtml2epub.py:168-198`). -/
def Project.put_ (P : Project) (s : Step) (w : World) : World :=
  let w := { w with fs := put w.fs s.out (some (s.result w.fs)) }
  ((P.stepRecord s w).map Prod.snd).getD w

/-- The end of `XHtml2Epub.build` (`xhtml2epub.py:162-199`): the package file is rendered again, and the archive is written and
recorded. -/
def Project.pack (P : Project) (b : Pack) (w : World) : Except Builder.Err Unit × World :=
  match P.node b.opf with
  | some (.step s) =>
    if s.parameters.any (missing w.fs) then (.error .exception, w)
    else
      let w := P.put_ s w
      if b.archive.parameters.any (missing w.fs) then (.error .exception, w) else (.ok (), P.put_ b.archive w)
  | _ => (.error .exception, w)

/-- The builders, nested up to a depth. -/
def Project.opsPack (P : Project) (b : Packs) : Nat → Ops
  | 0 => ⟨fun _ w => (.error .exception, w), fun _ w => (.error .exception, w), fun _ w => (.error .exception, w)⟩
  | k + 1 =>
    { status := fun n w => match P.node n with
        | none => (.error .exception, w)
        | some (.step s) => P.stepStatus n s w
        | some (.group g) => onSubs n (compStatus (P.subsOf (P.opsPack b k) n g)) w
      build := fun n w => match P.node n with
        | none => (.error .exception, w)
        | some (.step s) => P.stepBuild n s w
        | some (.group g) => match onSubs n (Builder.build (P.subsOf (P.opsPack b k) n g) g.parallel g.clear) w with
          | (.error e, w) => (.error e, w)
          | (.ok _, w) => match b n with
            | none => (.ok (), w)
            | some b => P.pack b w
      record := fun n w => match P.node n with
        | none => (.error .exception, w)
        | some (.step s) => match P.stepRecord s w with
          | none => (.error .exception, w)
          | some (b, w) => (.ok b, w)
        | some (.group g) => P.groupRecord (P.opsPack b k) n g w }

/-- The build of a document (`target_builders/receivers.py:118-136`). -/
def Project.buildPack (P : Project) (b : Packs) (depth root : Nat) : Nat → World → Option (Except Builder.Err Status) × World
  | 0, w => (none, w)
  | rounds + 1, w =>
    match (P.opsPack b depth).status root w with
    | (.error e, w) => (some (.error e), w)
    | (.ok st, w) =>
      if st = .building ∨ st = .ready then
        match (P.opsPack b depth).build root w with
        | (.error e, w) => (some (.error e), w)
        | (.ok _, w) => P.buildPack b depth root rounds w
      else
        match (P.opsPack b depth).status root w with
        | (.error e, w) => (some (.error e), w)
        | (.ok st, w) => (some (.ok st), w)

end Verif.Build
