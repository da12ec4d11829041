import Verif.Model.Checkers

/-!
# Model of what the commands print

Models `/repo/src/disseminate/cli/{term,build}.py`, `/repo/src/disseminate/cli/setup/checkers.py` and
`/repo/src/disseminate/cli/utils/progressbar.py`. Printed lines are given as lists of strings.
-/

namespace Verif.Terminal

open Verif Checkers

/-- `spacer * n` for a string. -/
def times (s : Str) : Nat → Str
  | 0 => []
  | n + 1 => s ++ times s n

/-- `fill_string` (`cli/term.py:13-22`). The lengths and the width are given by all callers or taken from the strings
and the terminal. The number of spacers is not below 0, as a string times a negative number is empty. -/
def fillString (start ending : Str) (startLen endLen : Option Nat) (spacer : Str) (width : Nat) : Str :=
  start ++ times spacer (width - startLen.getD start.length - endLen.getD ending.length) ++ ending

/-- The colours used. -/
inductive Colour
  | green | red | yellow | white
deriving Repr, DecidableEq

/-- `'{:^8}'.format(status)` (`cli/setup/checkers.py:17`). -/
def centre (s : Str) (n : Nat) : Str :=
  List.replicate ((n - s.length) / 2) ' ' ++ s ++ List.replicate ((n - s.length) - (n - s.length) / 2) ' '

/-- `print_single_check` (`cli/setup/checkers.py:13-23`), with `style` that of the package click. Simplification: a
colour is always given, as by `print_dependencies`. -/
def singleCheck (style : Str → Colour → Bool → Str) (msg status : Str) (colour : Colour) (bold : Bool) (spacer : Str)
    (level : Nat) : Str :=
  let msg := times " ".toList (2 * level) ++ msg
  let statusStr := "[".toList ++ centre status 8 ++ "]  ".toList
  fillString msg (style statusStr colour bold) none (some statusStr.length) spacer 80

/-- The status string (`cli/setup/checkers.py:27-36`). -/
def statusStr (available : Option Bool) (required : Bool) : Str × Colour × Bool × Str :=
  match available, required with
  | some true, _ => ("PASS".toList, .green, true, " ".toList)
  | some false, true => ("FAIL".toList, .red, true, ".".toList)
  | some false, false => ("MISSING".toList, .yellow, true, " ".toList)
  | none, _ => ("UNKNOWN".toList, .white, false, " ".toList)

/-- A line of `print_dependencies` (`cli/setup/checkers.py:26-69`). -/
def checkLine (style : Str → Colour → Bool → Str) (msg : Str) (available : Option Bool) (required : Bool) (level : Nat) : Str :=
  let (status, colour, bold, spacer) := statusStr available required
  singleCheck style msg status colour bold spacer level

mutual
/-- `print_dependencies` (`cli/setup/checkers.py:26-69`). -/
def printDep (style : Str → Colour → Bool → Str) (required : Bool) (level : Nat) : Dep → List Str
  | .group .all c ds =>
    checkLine style ("Checking required dependencies for '".toList ++ c ++ "'".toList) (some (available (.group .all c ds))) required level
      :: printDeps style true (level + 1) ds
  | .group .any c ds =>
    checkLine style ("Checking alternative dependencies for '".toList ++ c ++ "'".toList) (some (available (.group .any c ds))) required level
      :: printDeps style false (level + 1) ds
  | .group .optional c ds =>
    checkLine style ("Checking alternative dependencies for '".toList ++ c ++ "'".toList) (some (available (.group .optional c ds))) required level
      :: printDeps style false (level + 1) ds
  | .prog n a => [checkLine style ("Checking dependency '".toList ++ n ++ "'".toList) a required level]

/-- The loops `for i in item` (`cli/setup/checkers.py:44-45`). -/
def printDeps (style : Str → Colour → Bool → Str) (required : Bool) (level : Nat) : List Dep → List Str
  | [] => []
  | d :: ds => printDep style required level d ++ printDeps style required level ds
end

/-- `print_checkers` (`cli/setup/checkers.py:72-86`), for the checkers after their checks. -/
def printCheckers (style : Str → Colour → Bool → Str) (checkers : List Dep) : List Str :=
  checkers.flatMap (printDep style true 1)

/-! ## The table of a build -/

/-- A builder with its sub-builders, if it is a composite one. The number stands for the object. -/
inductive B
  | builder (id : Nat)
  | composite (id : Nat) (subs : List B)

mutual
/-- `CompositeBuilder.flatten` (`builders/composite_builders/composite_builder.py:115-140`). -/
def flatten : B → List Nat
  | .builder i => [i]
  | .composite i subs => i :: flattenAll subs

/-- The loop of `flatten` (`builders/composite_builders/composite_builder.py:133-138`). -/
def flattenAll : List B → List Nat
  | [] => []
  | b :: bs => flatten b ++ flattenAll bs
end

/-- The exceptions. -/
inductive TermError
  | assertion | zeroDivision
deriving Repr, DecidableEq

/-- `progress_builders` (`cli/utils/progressbar.py:6-19`). -/
def progressBuilders (status : Nat → Str) (builders : List Nat) : Nat × Nat :=
  ((builders.filter fun b => status b = "done".toList).length, builders.length)

/-- `value.ljust(width, " ")`. -/
def ljust (s : Str) (width : Nat) : Str := s ++ List.replicate (width - s.length) ' '

/-- The loops over the columns (`cli/utils/progressbar.py:48-49`, `60-61`). -/
def cells : List (Str × Nat) → Str
  | [] => []
  | (v, w) :: l => ljust v w ++ cells l

/-- `SimpleTable.print_hdr` (`cli/utils/progressbar.py:42-55`). -/
def printHdr (widths : List Nat) (values : List Str) : Except TermError (List Str) :=
  if widths.length = values.length then
    .ok [cells (values.zip widths), cells ((values.map fun v => List.replicate v.length '-').zip widths)]
  else .error .assertion

/-- `SimpleTable.print_row` (`cli/utils/progressbar.py:57-62`). -/
def printRow (widths : List Nat) (values : List Str) : List Str := [cells (values.zip widths)]

/-- `ProgressTable.hdrs` (`cli/utils/progressbar.py:87`). -/
def hdrs : List Str := ["Environment".toList, "Number Docs".toList, "Done / Total Builds (%)".toList]

/-- `ProgressTable` (`cli/utils/progressbar.py:65-105`). -/
structure Table where
  envName : Str
  numDocs : Str
  widths : List Nat

/-- `ProgressTable.__init__` (`cli/utils/progressbar.py:90-105`), for the documents of the environment, if there is a
root document. -/
def newTable (name : Str) (docs : Option Nat) : Table :=
  let num := match docs with
    | some n => Nat.toDigits 10 n
    | none => []
  ⟨name, num, [max "Environment".toList.length name.length + 2, max "Number Docs".toList.length num.length + 2,
    "Done / Total Builds (%)".toList.length + 2]⟩

/-- `ProgressTable.print_hdr` (`cli/utils/progressbar.py:107-108`). -/
def tableHdr (t : Table) : Except TermError (List Str) := printHdr t.widths hdrs

/-- `ProgressTable.print_row` (`cli/utils/progressbar.py:110-116`); `percent` is the text of the quotient of two numbers
as a percentage, with the exception for a division by zero here. -/
def tableRow (percent : Nat → Nat → Str) (t : Table) (status : Nat → Str) (builders : List Nat) : Except TermError (List Str) :=
  let (done, total) := progressBuilders status builders
  if total = 0 then .error .zeroDivision
  else .ok (printRow t.widths [t.envName, t.numDocs,
    Nat.toDigits 10 done ++ " / ".toList ++ Nat.toDigits 10 total ++ " (".toList ++ percent done total ++ "%)".toList])

/-! ## The build command -/

/-- An environment in the command: the state `σ` of its build, what a call of `build(complete=False)` of the root builder
does, and the statuses of builders. -/
structure Env (σ : Type) where
  name : Str
  docs : Option Nat
  root : B
  build : σ → Str × σ
  status : σ → Nat → Str

/-- The number of the root builder. -/
def rootId : B → Nat
  | .builder i => i
  | .composite i _ => i

/-- The row that is printed, if progress is enabled (`cli/build.py:35`, `41-42`). -/
def rowIf (percent : Nat → Nat → Str) (progress : Bool) (E : Env σ) (s : σ) : Except TermError (List Str) :=
  if progress then tableRow percent (newTable E.name E.docs) (E.status s) (flatten E.root) else .ok []

/-- The loop of the command (`cli/build.py:38-42`) with its printed lines, if it ends within `n` passes. -/
def loop (percent : Nat → Nat → Str) (progress : Bool) (E : Env σ) : Nat → Str → σ → Option (Except TermError (List Str × σ))
  | 0, st, s => if st = "ready".toList ∨ st = "building".toList then none else some (.ok ([], s))
  | n + 1, st, s =>
    if st = "ready".toList ∨ st = "building".toList then
      match rowIf percent progress E (E.build s).2 with
      | .error e => some (.error e)
      | .ok row =>
        match loop percent progress E n (E.build s).1 (E.build s).2 with
        | none => none
        | some (.error e) => some (.error e)
        | some (.ok (rows, s')) => some (.ok (row ++ rows, s'))
    else some (.ok ([], s))

/-- The header and the first row (`cli/build.py:32-35`). -/
def startLines (percent : Nat → Nat → Str) (progress : Bool) (E : Env σ) (s : σ) : Except TermError (List Str) := do
  if progress then
    let hdr ← tableHdr (newTable E.name E.docs)
    let row ← rowIf percent progress E s
    return hdr ++ row
  else return []

/-- The body of the loop over the environments (`cli/build.py:28-43`). -/
def buildEnv (percent : Nat → Nat → Str) (progress : Bool) (E : Env σ) (n : Nat) (s : σ) :
    Option (Except TermError (List Str × σ)) :=
  match startLines percent progress E s with
  | .error e => some (.error e)
  | .ok start =>
    match loop percent progress E n (E.status s (rootId E.root)) s with
    | none => none
    | some (.error e) => some (.error e)
    | some (.ok (rows, s')) => some (.ok (start ++ rows ++ ["Build: ".toList ++ E.status s' (rootId E.root)], s'))

end Verif.Terminal
