import Verif.Model.Paths

/-!
# Specification of the paths
-/

namespace Verif.Paths

open Verif

/-- A possible name of a file. -/
def IsName (n : Str) : Prop := n ≠ [] ∧ n ≠ ['.'] ∧ '/' ∉ n

/-- The components of a path are names. -/
def Good (p : Path) : Prop := ∀ c ∈ p.parts, IsName c

/-- The entry `n` of the directory `d`. -/
def child (d : Path) (n : Str) : Path := ⟨d.abs, d.parts ++ [n]⟩

/-- The extension of a name, without its period: not empty and without a period. -/
def IsExt (e : Str) : Prop := e ≠ [] ∧ '.' ∉ e ∧ '/' ∉ e

/-- A name without extension: no period except at its start or its end. -/
def NoExt (n : Str) : Prop := ∀ a b, n = a ++ '.' :: b → '.' ∉ b → a = [] ∨ b = []

/-- The name `n` consists of the stem `st` and the extension `e`, empty if the name has none. -/
def Splits (n st e : Str) : Prop :=
  (n = st ++ '.' :: e ∧ st ≠ [] ∧ e ≠ [] ∧ '.' ∉ e) ∨ (n = st ∧ st ≠ [] ∧ e = [] ∧ NoExt n)

/-- An extension with its period, added if it is missing. -/
def dotted (e : Str) : Str := if e.head? = some '.' then e else '.' :: e

/-- A target directory like `html`: relative, and its text neither starts nor ends with a period. -/
def CleanTarget (t : Path) : Prop :=
  t.abs = false ∧ (t.parts = [] ∨ ((toStr t).head? ≠ some '.' ∧ (toStr t).getLast? ≠ some '.'))

/-- The components of a path object are names. A path that has lost its root is not good. -/
def GoodPy : PyPath → Prop
  | .plain p => Good p
  | .source s => Good s.root ∧ Good s.sub ∧ s.sub.abs = false
  | .target t => Good t.root ∧ Good t.target ∧ Good t.sub ∧ t.sub.abs = false ∧ CleanTarget t.target
  | .untracked _ => False

/-- `p` is a path object for the relative subpath `sub`. -/
inductive HasSub : PyPath → Path → Prop
  | plain (sub : Path) : sub.abs = false → HasSub (.plain sub) sub
  | source (root sub : Path) : sub.abs = false → HasSub (.source ⟨root, sub⟩) sub
  | target (root target sub : Path) : sub.abs = false → HasSub (.target ⟨root, target, sub⟩) sub

/-- The directory of an output file for a given target and input: that of the target (`html` or `.html`), or
without a given target that of the input, if it has one. -/
inductive DirFor : Option Str → PyPath → Path → Prop
  | named (t : Str) (p : PyPath) : IsName t → t.head? ≠ some '.' → t.getLast? ≠ some '.' →
      DirFor (some t) p ⟨false, [t]⟩
  | dotted (t : Str) (p : PyPath) : IsName t → t.head? ≠ some '.' → t.getLast? ≠ some '.' →
      DirFor (some ('.' :: t)) p ⟨false, [t]⟩
  | input (tp : TargetPath) : Good tp.target → CleanTarget tp.target → DirFor none (.target tp) tp.target
  | noneSource (s : SourcePath) : DirFor none (.source s) ⟨false, []⟩
  | nonePlain (q : Path) : DirFor none (.plain q) ⟨false, []⟩

/-- The places where a file is looked for, in order: the path itself, then in each search path. -/
def locations (path : Path) (paths : List PyPath) : List Path := path :: paths.map fun p => div p.full path

/-- There is a file at a location. -/
def isThere (isFile : Path → Except PathError Bool) (p : Path) : Bool :=
  match isFile p with
  | .ok b => b
  | .error _ => false

/-- There is a file at a location, or looking for it fails. -/
def isHit (isFile : Path → Except PathError Bool) (p : Path) : Bool :=
  match isFile p with
  | .ok b => b
  | .error _ => true

/-- `a` is a directory strictly above `p`. -/
def Above (a p : Path) : Prop := a.abs = p.abs ∧ ∃ r, r ≠ [] ∧ p.parts = a.parts ++ r

/-- `p` lies in the directory `a`, at any depth. -/
def Within (a p : Path) : Prop := Above a p

/-- A document of a directory tree: an entry whose name has the extension. -/
def IsDoc (entries : List FsEntry) (ext : Str) (p : Path) : Prop :=
  (∃ e ∈ entries, e.path = p) ∧ ext <:+ name p

/-- The directory `d` itself holds a document. -/
def HoldsDoc (entries : List FsEntry) (ext : Str) (d : Path) : Prop :=
  ∃ n, IsDoc entries ext (child d n)

end Verif.Paths
