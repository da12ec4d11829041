import Verif.Model.ReplTags

/-!
# Specification of the replacement of tags by text
-/

namespace Verif.ReplTags

open Verif Verif.Tags

/-- The element at a place: the numbers are those of the items of lists, and 0 leads to the content of a tag. -/
def elemAt : Tree → List Nat → Option Tree
  | t, [] => some t
  | .tag _ x, 0 :: p => elemAt x p
  | .list l, i :: p => match l[i]? with
    | some x => elemAt x p
    | none => none
  | _, _ => none

/-- The element is a tag of the class. -/
def Instance (isClass : Str → Bool) : Tree → Prop
  | .tag c _ => isClass c = true
  | _ => False

/-- The place is not inside a tag of the class. -/
def Outside (isClass : Str → Bool) (t : Tree) (p : List Nat) : Prop :=
  ∀ q, q <+: p → q ≠ p → ∀ x, elemAt t q = some x → ¬ Instance isClass x

/-- Elements of the same kind: the same text, tags of the same class, or lists of the same length. -/
def SameKind : Tree → Tree → Prop
  | .str s, .str s' => s = s'
  | .tag c _, .tag c' _ => c = c'
  | .list l, .list l' => l.length = l'.length
  | _, _ => False

end Verif.ReplTags
