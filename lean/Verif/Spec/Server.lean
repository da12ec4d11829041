import Verif.Model.Server
import Verif.Spec.Checkers

/-! # Specification vocabulary for the preview server -/

namespace Verif.Server

open Verif Verif.Paths

/-- A path of a request, after its first slash, that does not name a page of the server itself. -/
def Own (r : Str) : Prop :=
  r ≠ [] ∧ r ≠ "checkers".toList ∧ r ≠ "signals".toList ∧ ∀ x, r ≠ "media/".toList ++ x

/-- Which handler answers a path. -/
inductive Handled : Str → Handler → Prop
  | tree : Handled "/".toList .tree
  | checkers : Handled "/checkers".toList .checkers
  | signals : Handled "/signals".toList .signals
  | media (r : Str) : Handled ("/media/".toList ++ r) (.static .server r false)
  | dm (s : Str) : Own (s ++ ".dm".toList) → Handled ('/' :: (s ++ ".dm".toList)) (.source (s ++ ".dm".toList) false)
  | tex (s : Str) : Own (s ++ ".tex".toList) → Handled ('/' :: (s ++ ".tex".toList)) (.source (s ++ ".tex".toList) true)
  | html (s : Str) : Own (s ++ ".html".toList) → Handled ('/' :: (s ++ ".html".toList)) (.static .here (s ++ ".html".toList) true)
  | epub (s : Str) : Own (s ++ ".epub".toList) → Handled ('/' :: (s ++ ".epub".toList)) (.static .here (s ++ ".epub".toList) true)
  | other (r : Str) : Own r →
      (∀ e ∈ [".dm", ".tex", ".html", ".epub"], ∀ s, r ≠ s ++ e.toList) → Handled ('/' :: r) (.static .here r false)
  | default (path : Str) : (∀ r, path ≠ '/' :: r) → Handled path .default

/-- The projects are loaded and built before a request for the path is answered. -/
def Loads (path : Str) : Prop :=
  path = "/".toList ∨ ∃ s, ∃ e ∈ [".tex", ".html", ".epub"], path = '/' :: (s ++ e.toList) ∧ Own (s ++ e.toList)

/-! ### Positions in trees -/

namespace Doc
def title : Doc → Str | .mk t _ _ _ _ => t
def src : Doc → SourcePath | .mk _ s _ _ _ => s
def builders : Doc → Targets.Builders | .mk _ _ b _ _ => b
def mtime : Doc → Option Nat | .mk _ _ _ m _ => m
def subs : Doc → List Doc | .mk _ _ _ _ l => l
end Doc

namespace Entry
def number : Entry → Nat | .mk n _ _ _ _ _ _ => n
def level : Entry → Nat | .mk _ l _ _ _ _ _ => l
def title : Entry → Str | .mk _ _ t _ _ _ _ => t
def src : Entry → SourcePath | .mk _ _ _ s _ _ _ => s
def targets : Entry → Dict Str TargetPath | .mk _ _ _ _ t _ _ => t
def date : Entry → Nat | .mk _ _ _ _ _ d _ => d
def subs : Entry → List Entry | .mk _ _ _ _ _ _ l => l
end Entry

namespace Check
def level : Check → Nat | .mk l _ _ _ => l
def status : Check → Status | .mk _ s _ _ => s
def name : Check → Str | .mk _ _ n _ => n
def subs : Check → List Check | .mk _ _ _ l => l
end Check

/-- The dependencies of a dependency. -/
def parts : Checkers.Dep → List Checkers.Dep
  | .prog _ _ => []
  | .group _ _ ds => ds

/-- The name of a program or package, the category of a list. -/
def nameOf : Checkers.Dep → Str
  | .prog n _ => n
  | .group _ c _ => c

/-- The node at a position: `[2, 0]` is the first child of the third tree. -/
def nodeAt {α : Type} (subs : α → List α) : List α → List Nat → Option α
  | _, [] => none
  | l, i :: is =>
    match l[i]? with
    | none => none
    | some a => if is = [] then some a else nodeAt subs (subs a) is

/-- An entry shows a document at a position: the level is the depth, and the number counts the documents with the same parent from one;
root documents have the number one. -/
structure Shows (pos : List Nat) (d : Doc) (e : Entry) : Prop where
  level : e.level = pos.length
  number : e.number = if pos.length = 1 then 1 else pos.getLast?.getD 0 + 1
  title : e.title = d.title
  src : e.src = d.src
  date : d.mtime = some e.date
  targets : ∀ t p, (t, p) ∈ e.targets ↔ ∃ b, (t, b) ∈ d.builders ∧ b.out = p

/-- A document that can be shown: its file is there, and its builders are stored under the extensions of their files. -/
structure Ready (d : Doc) : Prop where
  file : d.mtime ≠ none
  nodup : d.builders.keys.Nodup
  ext : ∀ t b, (t, b) ∈ d.builders → t.head? = some '.' ∧ suffix b.out.full = t

/-- A list entry is required at the top, and in lists of which all are required. -/
def Required (ds : List Checkers.Dep) (pos : List Nat) : Prop :=
  pos.length = 1 ∨ ∃ c l, nodeAt parts ds pos.dropLast = some (.group .all c l)

/-- An entry shows a dependency at a position. -/
structure ShowsDep (ds : List Checkers.Dep) (pos : List Nat) (d : Checkers.Dep) (e : Check) : Prop where
  level : e.level = pos.length
  name : e.name = nameOf d
  ok : e.status = .ok ↔ Checkers.Met (fun _ a => a = some true) d
  unknown : e.status = .unknown ↔ ∃ n, d = .prog n none
  fail : e.status = .fail ↔ Required ds pos ∧ ¬ Checkers.Met (fun _ a => a = some true) d ∧ ¬ ∃ n, d = .prog n none
  missing : e.status = .missing ↔ ¬ Required ds pos ∧ ¬ Checkers.Met (fun _ a => a = some true) d ∧ ¬ ∃ n, d = .prog n none

/-! ### Histories of requests -/

variable {R : Type}

/-- The root documents that the server knows after requests: those found by the first search that succeeds. -/
def Projects (hist : List (World R × Str)) (rs : List R) : Prop :=
  ∃ pre w path post, hist = pre ++ (w, path) :: post ∧ Loads path ∧ w.found = .ok rs ∧
    ∀ q ∈ pre, Loads q.2 → ∃ e, q.1.found = .error e

/-- The server knows no root documents yet. -/
def NoProjects (hist : List (World R × Str)) : Prop := ∀ q ∈ hist, Loads q.2 → ∃ e, q.1.found = .error e

end Verif.Server
