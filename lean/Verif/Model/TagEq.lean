import Verif.Model.Dict

/-!
# Equality of tags (`tags/tag.py`)

A tag holds its context with a weak reference, so that what equality compares depends on which contexts are still there.
Simplifications: classes and contexts are numbers, and the names and values of attributes are texts. Two values that are the
same object are compared like others; Python takes them as equal, and `C107_equivalence` shows that this is no difference.
-/

namespace Verif.TagEq

open Verif

mutual
/-- What the content of a tag may be: nothing, a text, a list, or a tag with its class, name, attributes, content and
context (`tags/tag.py:94-100`). -/
inductive Node where
  | none
  | str (s : Str)
  | list (l : Nodes)
  | tag (cls : Nat) (name : Str) (attrs : Dict Str Str) (content : Node) (ctx : Nat)
/-- A list of such values. -/
inductive Nodes where
  | nil
  | cons (a : Node) (l : Nodes)
end

/-- `==` of dicts: as many entries, and each entry of the one is an entry of the other. `Attributes` is a dict
(`attributes/attributes.py:113`). -/
def dictEq (a b : Dict Str Str) : Bool :=
  a.length == b.length && a.all fun kv => b.get? kv.1 == some kv.2

/-- What reading `tag.context` gives (`utils/classes.py:128-135`): `None` if the context is gone. -/
def readCtx (gone : Nat → Bool) (c : Nat) : Option Nat := if gone c then .none else some c

mutual
/-- `==` of two values; for tags it is `Tag.__eq__` (`tags/tag.py:109-114`). -/
def eqv (gone : Nat → Bool) : Node → Node → Bool
  | .none, .none => true
  | .str s, .str s' => s == s'
  | .list l, .list l' => eqvs gone l l'
  | .tag cls name attrs content ctx, .tag cls' name' attrs' content' ctx' =>
    cls == cls' && name == name' && dictEq attrs attrs' && eqv gone content content' &&
      readCtx gone ctx == readCtx gone ctx'
  | _, _ => false
/-- `==` of lists. -/
def eqvs (gone : Nat → Bool) : Nodes → Nodes → Bool
  | .nil, .nil => true
  | .cons a l, .cons a' l' => eqv gone a a' && eqvs gone l l'
  | _, _ => false
end

end Verif.TagEq
