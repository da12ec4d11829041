import Verif.Model.Dict

/-!
# The parents of a path (`utils/file.py`)

`parents` works on the text of a path with `os.path.split` and `os.path.splitext`, as they are on POSIX.
-/

namespace Verif.ParentPaths

open Verif

/-- What of the text is up to the last slash, with it: `p[:p.rfind('/') + 1]`. -/
def upTo (p : Str) : Str := (p.reverse.dropWhile (· != '/')).reverse

/-- What of the text is after the last slash. -/
def after (p : Str) : Str := (p.reverse.takeWhile (· != '/')).reverse

/-- `head.rstrip('/')`. -/
def rstrip (p : Str) : Str := (p.reverse.dropWhile (· == '/')).reverse

/-- `os.path.split(p)[0]` (used at `utils/file.py:32` and `37`): what is up to the last slash, without the slashes at its
end unless it is slashes only. -/
def splitHead (p : Str) : Str :=
  let head := upTo p
  if head ≠ [] ∧ head ≠ List.replicate head.length '/' then rstrip head else head

/-- `os.path.splitext(p)[1] != ""` (used at `utils/file.py:30`): there is a dot in the name, and before the last one
something that is not a dot. -/
def hasExt (p : Str) : Bool :=
  match (after p).reverse.dropWhile (· != '.') with
  | [] => false
  | _ :: before => before.any (· != '.')

/-- The loop (`utils/file.py:34-39`). `none` after as many rounds as are given: the loop is still running. -/
def loop : Nat → Str → Option (List Str)
  | 0, _ => none
  | n + 1, p =>
    if p = "/".toList ∨ p = ".".toList ∨ p = [] then some []
    else (loop n (splitHead p)).map (p :: ·)

/-- `parents` (`utils/file.py:9-39`), with a number of rounds for its loop. -/
def parents (n : Nat) (p : Str) : Option (List Str) :=
  loop n (if hasExt p then splitHead p else p)

end Verif.ParentPaths
