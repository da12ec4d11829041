import Verif.Model.Checkers

/-!
# Specification of the checkers
-/

namespace Verif.Checkers

open Verif

/-- A dependency is met, if `P` tells which programs and packages are there: all items of an `All` list, one of those
of an `Any` list, and an `Optional` list in any case. -/
inductive Met (P : Str → Option Bool → Prop) : Dep → Prop
  | prog (n : Str) (a : Option Bool) : P n a → Met P (.prog n a)
  | all (c : Str) (ds : List Dep) : (∀ d ∈ ds, Met P d) → Met P (.group .all c ds)
  | any (c : Str) (ds : List Dep) (d : Dep) : d ∈ ds → Met P d → Met P (.group .any c ds)
  | optional (c : Str) (ds : List Dep) : Met P (.group .optional c ds)

/-- A program or package is in a dependency, at any depth. -/
inductive Has : Dep → Str → Option Bool → Prop
  | prog (n : Str) (a : Option Bool) : Has (.prog n a) n a
  | group (k : Kind) (c : Str) (ds : List Dep) (d : Dep) (n : Str) (a : Option Bool) : d ∈ ds → Has d n a → Has (.group k c ds) n a

mutual
/-- The objects of a dependency with their levels, each before its parts. -/
def nodes (level : Nat) : Dep → List (Nat × Dep)
  | .prog n a => [(level, .prog n a)]
  | .group k c ds => (level, .group k c ds) :: allNodes (level + 1) ds

def allNodes (level : Nat) : List Dep → List (Nat × Dep)
  | [] => []
  | d :: ds => nodes level d ++ allNodes level ds
end

mutual
/-- The number of lists inside each other. -/
def nesting : Dep → Nat
  | .prog _ _ => 0
  | .group _ _ ds => nestings ds + 1

def nestings : List Dep → Nat
  | [] => 0
  | d :: ds => max (nesting d) (nestings ds)
end

/-- The order of versions is the lexicographic one. -/
def Fits : Op → List Nat → List Nat → Prop
  | .eq, a, b => a = b
  | .ne, a, b => a ≠ b
  | .lt, a, b => a < b
  | .gt, a, b => b < a
  | .le, a, b => a < b ∨ a = b
  | .ge, a, b => b < a ∨ a = b

/-- The text of an operator. -/
def opText : Op → Str
  | .eq => "==".toList
  | .ge => ">=".toList
  | .le => "<=".toList
  | .gt => ">".toList
  | .lt => "<".toList
  | .ne => "!=".toList

/-- The text of a version: decimal numbers with points between them. -/
def versionText (v : List Nat) : Str := join ".".toList (v.map (Nat.toDigits 10))

/-- What is known of the classes of characters. -/
structure Classes (word sp : Char → Bool) : Prop where
  space : ∀ c, sp c = true → word c = false ∧ c ≠ '.' ∧ c ≠ '-' ∧ c ≠ '_' ∧ c.isDigit = false
  ops : ∀ c ∈ "=<>!".toList, word c = false ∧ sp c = false

/-- A name of a package. -/
def IsName (word : Char → Bool) (n : Str) : Prop := n ≠ [] ∧ ∀ c ∈ n, word c = true ∨ c = '.' ∨ c = '-' ∨ c = '_'

/-- The text of a requirement: a name, or a name with a condition on the version. -/
def requirement (n : Str) : Option (Op × List Nat) → Str
  | none => n
  | some (op, v) => n ++ opText op ++ versionText v

/-- The version of an installed package meets a condition. -/
def Meets (v : List Nat) : Option (Op × List Nat) → Prop
  | none => True
  | some (op, w) => Fits op v w

/-- The output of `pip list --format=freeze` for the installed packages. -/
def freezeText (l : List (Str × List Nat)) : List Str := l.map fun e => e.1 ++ "==".toList ++ versionText e.2

/-- Each list of a checker has been checked by the method for its category, and single dependencies are as they were. -/
inductive Checked (handlers : Str → Option (Dep → Except CheckError Dep)) : List Dep → List Dep → Prop
  | nil : Checked handlers [] []
  | prog (n : Str) (a : Option Bool) (ds ds' : List Dep) : Checked handlers ds ds' →
      Checked handlers (.prog n a :: ds) (.prog n a :: ds')
  | group (k : Kind) (c : Str) (l : List Dep) (f : Dep → Except CheckError Dep) (d' : Dep) (ds ds' : List Dep) :
      handlers c = some f → f (.group k c l) = .ok d' → Checked handlers ds ds' →
      Checked handlers (.group k c l :: ds) (d' :: ds')

end Verif.Checkers
