import Verif.Model.Links

/-!
# Specification of links
-/

namespace Verif.Links

open Verif Verif.Paths

/-- A text is the list of these names with slashes between them. -/
inductive Slashed : Str → List Str → Prop
  | one (s : Str) : '/' ∉ s → Slashed s [s]
  | cons (s r : Str) (l : List Str) : '/' ∉ s → Slashed r l → Slashed (s ++ '/' :: r) (s :: l)

/-- Following names from the directory at `d` (the names from the root to it) leads to `e`: `.` stays, `..` goes up (and
stays at the root), any other name goes down. A browser reads a relative link this way, and so does a file system
without symbolic links. -/
inductive Walk : List Str → List Str → List Str → Prop
  | here (d : List Str) : Walk d [] d
  | stay {d l e : List Str} : Walk d l e → Walk d (['.'] :: l) e
  | up {d l e : List Str} (x : Str) : Walk d l e → Walk (d ++ [x]) (['.', '.'] :: l) e
  | top {l e : List Str} : Walk [] l e → Walk [] (['.', '.'] :: l) e
  | down {d l e : List Str} (n : Str) : n ≠ ['.'] → n ≠ ['.', '.'] → Walk (d ++ [n]) l e → Walk d (n :: l) e

/-- The place a path names, from the current directory if it is relative. -/
def At (cwd : List Str) (p : Path) (e : List Str) : Prop := Walk [] ((if p.abs then [] else cwd) ++ p.parts) e

/-- The names of a path to a file: the root of the target, the directory of the target and the path in it. -/
inductive FileOf : TargetPath → Path → Prop
  | mk (root target sub : Path) : target.abs = false → sub.abs = false →
      FileOf ⟨root, target, sub⟩ ⟨root.abs, root.parts ++ target.parts ++ sub.parts⟩

/-- A link leads from a page to a file: read in the directory of the page, it names the file. -/
def Leads (cwd : List Str) (page : TargetPath) (link : Str) (file : TargetPath) : Prop :=
  ∃ (p f : Path) (dir names : List Str) (n : Str) (d e : List Str),
    FileOf page p ∧ FileOf file f ∧ p.parts = dir ++ [n] ∧ At cwd ⟨p.abs, dir⟩ d ∧ At cwd f e ∧
    Slashed link names ∧ Walk d names e

/-- The two parts of a URL: what comes before the first `#`, and the anchor behind it. -/
inductive Parts : Str → Str → Option Str → Prop
  | whole (s : Str) : '#' ∉ s → Parts s s none
  | anchor (s a : Str) : '#' ∉ s → Parts (s ++ '#' :: a) s (some a)

end Verif.Links
