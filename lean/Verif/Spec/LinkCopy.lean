import Verif.Model.LinkCopy

/-!
# Specification of links and copies
-/

namespace Verif.LinkCopy

open Verif

variable {N : Type}

/-- What is read at a name. -/
def Disk.read (d : Disk N) (n : N) : Option Str := (d.entry n).bind d.text

/-- A disk as the system has it: names are on the devices of their directories, directories exist, and the next number on a
device is not in use. -/
structure Sound (S : Sys N) (d : Disk N) : Prop where
  dev : ∀ n f, d.entry n = some f → f.1 = S.dev n
  parent : ∀ n f, d.entry n = some f → S.parent n = true
  fresh : ∀ (d' : Disk N) (n : N) (i : Nat), (∀ m f, d'.entry m = some f → d.entry m = some f) → d'.entry n ≠ some (i, S.fresh d' i)

/-- Two names do not have files with one number on two devices. -/
def NoClash (d : Disk N) (src dst : N) : Prop :=
  ∀ f g, d.entry src = some f → d.entry dst = some g → f.2 = g.2 → f = g

end Verif.LinkCopy
