import Verif.Model.TagEq

/-!
# When tags are equal
-/

namespace Verif.TagEq.Spec

open Verif

mutual
/-- Two values are the same but for the order of the attributes of their tags, and each tag of the one has the context of
the tag at its place in the other, unless both contexts are gone. -/
inductive Same (gone : Nat → Bool) : Node → Node → Prop where
  | none : Same gone .none .none
  | str (s : Str) : Same gone (.str s) (.str s)
  | list {l l' : Nodes} : Sames gone l l' → Same gone (.list l) (.list l')
  | tag (cls : Nat) (name : Str) {attrs attrs' : Dict Str Str} {content content' : Node} {ctx ctx' : Nat} :
      (∀ k, attrs.get? k = attrs'.get? k) → Same gone content content' →
      (ctx = ctx' ∨ gone ctx = true ∧ gone ctx' = true) →
      Same gone (.tag cls name attrs content ctx) (.tag cls name attrs' content' ctx')
/-- The same for lists. -/
inductive Sames (gone : Nat → Bool) : Nodes → Nodes → Prop where
  | nil : Sames gone .nil .nil
  | cons {a a' : Node} {l l' : Nodes} : Same gone a a' → Sames gone l l' → Sames gone (.cons a l) (.cons a' l')
end

mutual
/-- The attributes of all tags are dicts: no name is twice in one of them. -/
def Dicts : Node → Prop
  | .none => True
  | .str _ => True
  | .list l => AllDicts l
  | .tag _ _ attrs content _ => attrs.keys.Nodup ∧ Dicts content
/-- The same for lists. -/
def AllDicts : Nodes → Prop
  | .nil => True
  | .cons a l => Dicts a ∧ AllDicts l
end

end Verif.TagEq.Spec
