import Verif.Model.Builder

/-! # Specification vocabulary for builders -/

namespace Verif.Builder

open Verif

/-- The last answer of a sub-builder to the question for its status. -/
def lastPoll : List Ev → Nat → Option (Except Err Status)
  | [], _ => none
  | .polled i r :: t, j => (lastPoll t j).or (if i = j then some r else none)
  | .built _ :: t, j => lastPoll t j

/-- `j` comes before `k` in the list. -/
def Before (L : List Nat) (j k : Nat) : Prop := ∃ a b c, L = a ++ j :: (b ++ k :: c)

/-- Sub-builders whose processes all end: one that is not started is ready, one that runs reports 'building' a
number of times, and then it is done. -/
inductive Phase
  | waiting (n : Nat)
  | running (n : Nat)
  | done
deriving Repr, DecidableEq

def Phase.status : Phase → Status
  | .waiting _ => .ready
  | .running 0 => .done
  | .running (_ + 1) => .building
  | .done => .done

def Phase.polled : Phase → Phase
  | .running 0 => .done
  | .running (n + 1) => .running n
  | p => p

def Phase.built : Phase → Phase
  | .waiting n => .running n
  | p => p

def upd (w : Nat → Phase) (i : Nat) (p : Phase) : Nat → Phase := fun j => if j = i then p else w j

def ending : Subs (Nat → Phase) where
  status i w := (.ok (w i).status, upd w i (w i).polled)
  build i w := (.ok (), upd w i (w i).built)
  record w := (.ok (), w)

/-- The best choice among builder classes for an input and an output extension. -/
def Best (clss : List Cls) (inExt outExt : Str) (c : Cls) : Prop :=
  c ∈ clss ∧ c.available = true ∧ c.active = true ∧ c.inExt = inExt ∧ c.outExt = outExt ∧
  ∀ c' ∈ clss, c'.available = true → c'.active = true → c'.inExt = inExt → c'.outExt = outExt → c'.priority ≤ c.priority

end Verif.Builder
