import Verif.Model.Dict

/-!
# What the parents of a path are
-/

namespace Verif.ParentPaths.Spec

open Verif

/-- The name of a file or a directory in a path. -/
def Name (c : Str) : Prop := c ≠ [] ∧ '/' ∉ c

/-- A name with an extension: a last dot with something before it that is not a dot. -/
def WithExt (c : Str) : Prop := ∃ a b, c = a ++ '.' :: b ∧ '.' ∉ b ∧ ∃ x ∈ a, x ≠ '.'

/-- The text of a path: after the root, if it has one, the names with slashes between them. -/
def path (root : Str) (names : List Str) : Str := root ++ List.intercalate "/".toList names

/-- The paths of a list of names and of the lists that are left when names are taken off its end, longest first, down
to one name. -/
def upwards (root : Str) (names : List Str) : List Str :=
  (List.range names.length).map fun i => path root (names.take (names.length - i))

/-- A text that starts with two slashes. -/
def TwoSlashes (p : Str) : Prop := ∃ q, p = '/' :: '/' :: q

end Verif.ParentPaths.Spec
