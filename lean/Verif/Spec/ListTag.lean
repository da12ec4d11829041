import Verif.Model.ListTag

/-!
# What list levels and nested lists should be
-/

namespace Verif.ListTag

open Verif

/-- The place after `a` is the start of a line; `bol` says whether `a` itself is at one. -/
def LineStart (bol : Bool) (a : Str) : Prop := (a = [] ∧ bol = true) ∨ ∃ a', a = a' ++ ['\n']

/-- Between `a` and `c` there is a bullet on its line, with nothing but spaces before it. -/
def BulletBetween (sp : Char → Bool) (bol : Bool) (a w : Str) (b : Char) : Prop :=
  LineStart bol a ∧ (∀ c ∈ w, sp c = true) ∧ (b = '*' ∨ b = '-')

/-- The cut of a text at its bullets: the text before the first, and for each its spaces and the text after it. The
first bullet is taken from the earliest line start that has only spaces up to it. -/
inductive Cut (sp : Char → Bool) : Bool → Str → Str → List (Str × Str) → Prop
  | last {bol s} (h : ∀ a w b c, s = a ++ w ++ b :: c → ¬ BulletBetween sp bol a w b) : Cut sp bol s s []
  | bullet {bol pre w b rest txt items}
      (hb : BulletBetween sp bol pre w b)
      (hfirst : ∀ a w' b' c, pre ++ w ++ b :: rest = a ++ w' ++ b' :: c → BulletBetween sp bol a w' b' →
        pre.length ≤ a.length)
      (h : Cut sp false rest txt items) :
      Cut sp bol (pre ++ w ++ b :: rest) pre ((w, txt) :: items)

mutual
  /-- The items of a node with their depths, in order. -/
  def Node.items1 {α : Type} : Nat → Node α → List (Nat × α)
    | d, .li x => [(d, x)]
    | d, .sub l => Node.items (d + 1) l
  /-- The items of a rendered list with their depths, in order. -/
  def Node.items {α : Type} : Nat → List (Node α) → List (Nat × α)
    | _, [] => []
    | d, n :: ns => n.items1 d ++ Node.items d ns
end

/-- Each level is at most one more than the one before. -/
def StepsUp {α : Type} : Nat → List (Nat × α) → Prop
  | _, [] => True
  | p, e :: es => e.1 ≤ p + 1 ∧ StepsUp e.1 es

/-- Levels that start at `d`, are never below it and go up by one at most. -/
def WellNested {α : Type} (d : Nat) : List (Nat × α) → Prop
  | [] => True
  | e :: es => e.1 = d ∧ StepsUp d es ∧ ∀ x ∈ es, d ≤ x.1

end Verif.ListTag
