import Verif.Model.Rewrite
import Verif.Spec.Links
import Verif.Spec.Paths

/-! # Specification vocabulary for links in templates -/

namespace Verif.Rewrite

open Verif Verif.Paths Verif.Links

/-- A path as it is written in a template: names with slashes between them, with any number of slashes around, on one line and
without spaces at its ends. -/
structure Stub (sp brk : Char → Bool) (stub text : Str) (names : List Str) : Prop where
  around : ∃ a b, stub = List.replicate a '/' ++ text ++ List.replicate b '/'
  slashed : Slashed text names
  good : ∀ n ∈ names, IsName n
  line : ∀ ch ∈ text, brk ch = false
  first : ∀ ch, text.head? = some ch → sp ch = false
  last : ∀ ch, text.getLast? = some ch → sp ch = false

/-- There is such a file. -/
def IsFile (isFile : Path → Except PathError Bool) (p : Path) : Prop := isFile p = .ok true

/-- There is no such file, and the file system can tell. -/
def NoFile (isFile : Path → Except PathError Bool) (p : Path) : Prop := isFile p = .ok false

/-- The file with these names in the target directory of an output file. -/
def inTarget (out : TargetPath) (names : List Str) : Path := ⟨out.root.abs, out.root.parts ++ out.target.parts ++ names⟩

/-- The file with these names in the directory of an output file. -/
def inDirectory (out : TargetPath) (names : List Str) : Path :=
  ⟨out.root.abs, (out.root.parts ++ out.target.parts ++ out.sub.parts).dropLast ++ names⟩

end Verif.Rewrite
