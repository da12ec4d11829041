import Verif.Model.Terminal
import Verif.Spec.Checkers

/-!
# Specification of what the commands print
-/

namespace Verif.Terminal

open Verif Checkers

/-- What a line of the report says of a dependency. -/
inductive Verdict
  | pass | fail | missing | unknown
deriving Repr, DecidableEq

/-- A dependency is met by what is there. -/
abbrev There (d : Dep) : Prop := Met (fun _ a => a = some true) d

/-- What is to be said of a dependency that is needed or not. -/
inductive Judged (needed : Bool) (d : Dep) : Verdict → Prop
  | pass : There d → Judged needed d .pass
  | unknown (n : Str) : d = .prog n none → Judged needed d .unknown
  | fail : ¬ There d → (∀ n, d ≠ .prog n none) → needed = true → Judged needed d .fail
  | missing : ¬ There d → (∀ n, d ≠ .prog n none) → needed = false → Judged needed d .missing

/-- The text at the end of a line. -/
def badge : Verdict → Str
  | .pass => "[  PASS  ]  ".toList
  | .fail => "[  FAIL  ]  ".toList
  | .missing => "[MISSING ]  ".toList
  | .unknown => "[UNKNOWN ]  ".toList

def colour : Verdict → Colour
  | .pass => .green
  | .fail => .red
  | .missing => .yellow
  | .unknown => .white

def bold : Verdict → Bool
  | .unknown => false
  | _ => true

/-- What fills a line. -/
def filler : Verdict → Char
  | .fail => '.'
  | _ => ' '

/-- The text at the start of a line. -/
def title : Dep → Str
  | .prog n _ => "Checking dependency '".toList ++ n ++ "'".toList
  | .group .all c _ => "Checking required dependencies for '".toList ++ c ++ "'".toList
  | .group _ c _ => "Checking alternative dependencies for '".toList ++ c ++ "'".toList

/-- A line of the report: the title is indented by the level, and the verdict is at the end of 80 columns, if there is
room. -/
def IsLine (style : Str → Colour → Bool → Str) (x : Nat × Bool × Dep) (line : Str) : Prop :=
  ∃ v gap, Judged x.2.1 x.2.2 v ∧
    line = List.replicate (2 * x.1) ' ' ++ title x.2.2 ++ gap ++ style (badge v) (colour v) (bold v) ∧
    (∀ c ∈ gap, c = filler v) ∧
    (2 * x.1 + (title x.2.2).length + (badge v).length ≤ 80 →
      2 * x.1 + (title x.2.2).length + gap.length + (badge v).length = 80) ∧
    (80 ≤ 2 * x.1 + (title x.2.2).length + (badge v).length → gap = [])

mutual
/-- The objects of a dependency with their levels, each before its parts, and whether they are needed: the parts of an
`All` list are. -/
def shown (needed : Bool) (level : Nat) : Dep → List (Nat × Bool × Dep)
  | .prog n a => [(level, needed, .prog n a)]
  | .group k c ds => (level, needed, .group k c ds) :: allShown (k = .all) (level + 1) ds

def allShown (needed : Bool) (level : Nat) : List Dep → List (Nat × Bool × Dep)
  | [] => []
  | d :: ds => shown needed level d ++ allShown needed level ds
end

/-- Two lists of the same length have related items. -/
inductive Each (R : α → β → Prop) : List α → List β → Prop
  | nil : Each R [] []
  | cons {a : α} {b : β} {l : List α} {m : List β} : R a b → Each R l m → Each R (a :: l) (b :: m)

/-! ## The table of a build -/

mutual
/-- The number of builders of a tree that are `p`. -/
def count (p : Nat → Prop) [DecidablePred p] : B → Nat
  | .builder i => if p i then 1 else 0
  | .composite i subs => (if p i then 1 else 0) + countAll p subs

def countAll (p : Nat → Prop) [DecidablePred p] : List B → Nat
  | [] => 0
  | b :: bs => count p b + countAll p bs
end

/-- A line has three texts, the second of which starts in the column `c1` and the third in the column `c2`, with at
least two spaces before each of them. -/
def InColumns (c1 c2 : Nat) (line a b c : Str) : Prop :=
  ∃ x y z, line = a ++ List.replicate x ' ' ++ b ++ List.replicate y ' ' ++ c ++ List.replicate z ' ' ∧
    a.length + x = c1 ∧ c1 + b.length + y = c2 ∧ 2 ≤ x ∧ 2 ≤ y

/-- The text of the number of documents. -/
def docsText : Option Nat → Str
  | some n => Nat.toDigits 10 n
  | none => []

/-- A row of the table in a state: how many builders are done, of how many. -/
def IsRow (percent : Nat → Nat → Str) (E : Env σ) (c1 c2 : Nat) (s : σ) (line : Str) : Prop :=
  InColumns c1 c2 line E.name (docsText E.docs)
    (Nat.toDigits 10 (count (fun i => E.status s i = "done".toList) E.root) ++ " / ".toList ++
      Nat.toDigits 10 (count (fun _ => True) E.root) ++ " (".toList ++
      percent (count (fun i => E.status s i = "done".toList) E.root) (count (fun _ => True) E.root) ++ "%)".toList)

/-- There is a pass of the root builder as long as it is ready or building: the states after each of the passes. -/
inductive Passes (E : Env σ) : Str → σ → List σ → Prop
  | stop (st : Str) (s : σ) : st ≠ "ready".toList → st ≠ "building".toList → Passes E st s []
  | pass (st : Str) (s : σ) (l : List σ) : st = "ready".toList ∨ st = "building".toList →
      Passes E (E.build s).1 (E.build s).2 l → Passes E st s ((E.build s).2 :: l)

end Verif.Terminal
