import Verif.Model.Basic

/-!
# Model of links and copies of files

Models `link_or_copy` of `/repo/src/disseminate/utils/file.py` with every state of the disk on the way, so that a stop at any
point can be stated.

Simplifications: names are opaque, there are no symbolic links, and no other process changes the disk. The text of a file is a
list of characters that is written in order. Permissions are part of whether a link can be made; removing and writing files is
otherwise allowed.
-/

namespace Verif.LinkCopy

open Verif

/-- A file by its device and its number on the device (`st_dev` and `st_ino`). -/
abbrev Node := Nat × Nat

/-- The names of a disk and what the files have; directories have no text. -/
structure Disk (N : Type) where
  entry : N → Option Node
  text : Node → Option Str

/-- What does not change: the device of each name, whether its directory exists, whether links between two names are
supported, and the number of the next file on a device. -/
structure Sys (N : Type) where
  dev : N → Nat
  parent : N → Bool
  linkable : N → N → Bool
  fresh : Disk N → Nat → Nat

inductive Err
  | notFound | isDirectory
deriving Repr, DecidableEq

variable {N : Type} [DecidableEq N]

/-- A name is given a file, or none. -/
def Disk.set (d : Disk N) (n : N) (f : Option Node) : Disk N := { d with entry := fun m => if m = n then f else d.entry m }

/-- A file is given a text. -/
def Disk.write (d : Disk N) (f : Node) (s : Str) : Disk N := { d with text := fun g => if g = f then some s else d.text g }

/-- `os.remove(dst)` (`utils/file.py:63`). -/
def remove (d : Disk N) (dst : N) (g : Node) : Except Err (Disk N) :=
  match d.text g with
  | none => .error .isDirectory
  | some _ => .ok (d.set dst none)

/-- `os.link(src, dst)` (`utils/file.py:72`) for a name that does not exist; `none` is an `OSError`. -/
def link (S : Sys N) (d : Disk N) (src dst : N) (f : Node) : Option (Disk N) :=
  match d.text f with
  | none => none
  | some _ => if S.parent dst ∧ S.dev src = S.dev dst ∧ S.linkable src dst then some (d.set dst (some f)) else none

/-- `shutil.copyfile(src, dst)` (`utils/file.py:74`) for a name that does not exist: the file is opened, created and written
part by part. -/
def copyfile (S : Sys N) (d : Disk N) (dst : N) (f : Node) : List (Disk N) × Except Err Unit :=
  match d.text f with
  | none => ([], .error .isDirectory)
  | some s =>
    if S.parent dst then
      let g := (S.dev dst, S.fresh d (S.dev dst))
      ((List.range (s.length + 1)).map fun k => (d.set dst (some g)).write g (s.take k), .ok ())
    else ([], .error .notFound)

/-- The link or else the copy (`utils/file.py:70-74`). -/
def put (S : Sys N) (d : Disk N) (src dst : N) (f : Node) : List (Disk N) × Except Err Unit :=
  match link S d src dst f with
  | some d' => ([d'], .ok ())
  | none => copyfile S d dst f

/-- `link_or_copy` (`utils/file.py:42-74`): the states of the disk, one after the other, and the result. -/
def linkOrCopy (S : Sys N) (d : Disk N) (src dst : N) : List (Disk N) × Except Err Unit :=
  match d.entry src with
  | none => ([], .error .notFound)
  | some f =>
    match d.entry dst with
    | none => put S d src dst f
    | some g =>
      if f.2 ≠ g.2 then
        match remove d dst g with
        | .error e => ([], .error e)
        | .ok d' => (d' :: (put S d' src dst f).1, (put S d' src dst f).2)
      else ([], .ok ())

/-- The disk at the end. -/
def after (S : Sys N) (d : Disk N) (src dst : N) : Disk N := ((linkOrCopy S d src dst).1.getLast?).getD d

end Verif.LinkCopy
