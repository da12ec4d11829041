import Verif.Model.Kpse

/-!
# Specification of the processes of the checker for pdf
-/

namespace Verif.Kpse

open Verif Verif.Checkers

mutual
/-- The names of the programs, at all levels, in order. -/
def names : Dep → List Str
  | .prog n _ => [n]
  | .group _ _ ds => allNames ds
def allNames : List Dep → List Str
  | [] => []
  | d :: ds => names d ++ allNames ds
end

mutual
/-- How many lists are inside each other. -/
def depth : Dep → Nat
  | .prog _ _ => 0
  | .group _ _ ds => allDepth ds + 1
def allDepth : List Dep → Nat
  | [] => 0
  | d :: ds => max (depth d) (allDepth ds)
end

/-- The processes that are started, with their files. -/
def starts (l : List Event) : List (Nat × Str) := l.filterMap fun | .start i f => some (i, f) | .wait _ => none

/-- The processes that are waited for. -/
def waits (l : List Event) : List Nat := l.filterMap fun | .start _ _ => none | .wait i => some i

/-- At no time there are more than `k` processes that were started and not waited for. -/
def AtMost (k : Nat) (l : List Event) : Prop := ∀ p, p <+: l → (starts p).length ≤ (waits p).length + k

end Verif.Kpse
