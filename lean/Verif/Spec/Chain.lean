import Verif.Model.Chain

/-!
# Specification of chains of builders
-/

namespace Verif.Chain

open Verif

variable {P O C : Type}

/-- What a builder consists of, without parameters and paths: whether it copies and what it makes of a file, or the parts
that are run in order. -/
inductive Shape (C : Type)
  | one (copy : Bool) (act : Option C → C)
  | parts (l : List (Shape C))

mutual
def shape : B P O C → Shape C
  | .leaf k _ _ => .one k.copy k.act
  | .seq _ _ _ _ _ subs => .parts (shapes subs)

def shapes : List (B P O C) → List (Shape C)
  | [] => []
  | b :: bs => shape b :: shapes bs
end

mutual
/-- The single steps, in order. -/
def steps : Shape C → List (Option C → C)
  | .one _ a => [a]
  | .parts l => stepsAll l

def stepsAll : List (Shape C) → List (Option C → C)
  | [] => []
  | b :: bs => steps b ++ stepsAll bs
end

mutual
/-- The number of levels of sequential builders. -/
def levels : Shape C → Nat
  | .one _ _ => 0
  | .parts l => levelsAll l + 1

def levelsAll : List (Shape C) → Nat
  | [] => 0
  | b :: bs => max (levels b) (levelsAll bs)
end

/-- No sequential builder is without sub-builders. -/
inductive NoneEmpty : Shape C → Prop
  | one (c : Bool) (a : Option C → C) : NoneEmpty (.one c a)
  | parts (l : List (Shape C)) : l ≠ [] → (∀ b ∈ l, NoneEmpty b) → NoneEmpty (.parts l)

/-- The last part of each sequential builder is a copy. -/
inductive EndsInCopy : Shape C → Prop
  | one (c : Bool) (a : Option C → C) : EndsInCopy (.one c a)
  | parts (l : List (Shape C)) (a : Option C → C) : (∀ c, a (some c) = c) → (∀ b ∈ l, EndsInCopy b) →
      EndsInCopy (.parts (l ++ [.one true a]))

/-- The content after some steps, each of which is given what the one before has written. -/
def after (as : List (Option C → C)) (c : Option C) : Option C := as.foldl (fun c a => some (a c)) c

def storedOf : B P O C → List P
  | .leaf _ s _ => s
  | .seq _ _ _ s _ _ => s

def outOf : B P O C → Option O
  | .leaf _ _ o => o
  | .seq _ _ _ _ o _ => o

/-- The parameters a builder has: those that were given and those it adds. -/
def paramsOf : B P O C → List P
  | .leaf k s _ => s ++ k.extra s
  | .seq k _ _ s _ _ => s ++ k.extra s

def copies : B P O C → Bool
  | .leaf k _ _ => k.copy
  | .seq _ _ _ _ _ _ => false

/-- `given` are the parameters `ps` without repetitions: each occurs at its first position. -/
inductive Once : List P → List P → Prop
  | nil : Once [] []
  | cons (p : P) (l r : List P) : p ∉ l → Once l r → Once (l ++ [p]) (r ++ [p])
  | again (p : P) (l r : List P) : p ∈ l → Once l r → Once (l ++ [p]) r

/-- The output path `o` is the one made from the parameters `ps`: that of a single builder is generated from them, that of a sequential
builder is generated from them and then named after that of one of its sub-builders, if it asks for that. -/
inductive Generated (ps : List P) : B P O C → O → Prop
  | leaf (k : Kind P O C) (s : List P) (x : Option O) : Generated ps (.leaf k s x) (k.gen ps)
  | seq (k : Kind P O C) (i : Option Nat) (f : O → Option O → O) (s : List P) (x : Option O) (subs : List (B P O C)) (name : Option O) :
      (i = none → name = none) → Generated ps (.seq k i f s x subs) (f (k.gen ps) name)

/-- The first builder has the parameters `given`; the next one has the output of this one in front and, behind it, the parameters
of this one that are not paths; and so on. The output of each that is not a copy is made from its parameters, whatever it was before. -/
inductive Linked (path : O → P) (isPath : P → Bool) : List P → List (B P O C) → Prop
  | nil (given : List P) : Linked path isPath given []
  | cons (given : List P) (b : B P O C) (o : O) (ps : List P) (bs : List (B P O C)) : storedOf b = given → outOf b = some o →
      Once (paramsOf b) ps → (copies b = false → Generated ps b o) →
      Linked path isPath (path o :: ps.filter (fun p => !isPath p)) bs → Linked path isPath given (b :: bs)

/-- The sub-builders of each sequential builder are linked, the first of them having the parameters of the sequential builder; and
if the last of them is a copy, its output is that of the sequential builder. -/
inductive Chained (path : O → P) (isPath : P → Bool) : B P O C → Prop
  | leaf (k : Kind P O C) (s : List P) (o : Option O) : Chained path isPath (.leaf k s o)
  | seq (k : Kind P O C) (i : Option Nat) (f : O → Option O → O) (s : List P) (o : Option O) (subs : List (B P O C)) (last : B P O C)
      (given : List P) : Once (s ++ k.extra s) given → Linked path isPath given (subs ++ [last]) →
      (copies last = true → ∃ x, o = some x ∧ outOf last = some x) → (∀ b ∈ subs ++ [last], Chained path isPath b) →
      Chained path isPath (.seq k i f s o (subs ++ [last]))

end Verif.Chain
