import Verif.Model.Document

/-!
# Specification for documents
-/

namespace Verif.Documents.Spec

open Verif Verif.Documents

variable {P : Type} [DecidableEq P]

/-- The includes of the text of a file, if it can be loaded. -/
def contents (w : World P) (p : P) : Option (List P) :=
  match w p with
  | some f => if f.sizeOk then f.includes else none
  | none => none

/-- The includes of a file. -/
def inc (w : World P) (p : P) : List P := (contents w p).getD []

/-- The files that a file includes, directly or through other files; the file itself is one of them. -/
inductive Reach (w : World P) (root : P) : P → Prop
  | root : Reach w root root
  | step {p q : P} : Reach w root p → q ∈ inc w p → Reach w root q

/-- An endless chain of includes that does not come back to the root, without files that include themselves. -/
def EndlessChain (w : World P) (root : P) : Prop :=
  ∃ c : Nat → P, c 0 = root ∧ ∀ i, c (i + 1) ∈ inc w (c i) ∧ c (i + 1) ≠ c i ∧ c (i + 1) ≠ root

/-- Reading order: depth first, each file at its first occurrence. `Reading w seen todo all` says that after reading `seen`,
reading the files `todo` with all they include gives `all`. -/
inductive Reading (w : World P) : List P → List P → List P → Prop
  | done (seen : List P) : Reading w seen [] seen
  | again {seen todo all : List P} {p : P} : p ∈ seen → Reading w seen todo all → Reading w seen (p :: todo) all
  | first {seen seen' todo all : List P} {p : P} :
      p ∉ seen → Reading w (seen ++ [p]) (inc w p) seen' → Reading w seen' todo all → Reading w seen (p :: todo) all

/-- The recorded time of a document. -/
def timeOf (docs : List (Doc P)) (x : Nat) : Option Nat := (docs[x]?).bind (·.mtime)

/-- The file of a document. -/
def pathOf (docs : List (Doc P)) (x : Nat) : Option P := (docs[x]?).map (·.path)

/-- No file includes a file twice, and each file other than the root is included by one file (apart from itself). -/
def TreeLike (w : World P) (root : P) : Prop :=
  (∀ p, (inc w p).Nodup) ∧
  ∀ p p' q, Reach w root p → Reach w root p' → q ∈ inc w p → q ∈ inc w p' → q ≠ p → q ≠ p' → q ≠ root → p = p'

/-- The states of a project whose files always have the includes `C`: the root document is created, then loaded (perhaps with
`reload=True`) any number of times, each time with other modification times of files. -/
inductive History (C : P → Option (List P)) (root : P) : World P → Heap P → Prop
  | create {w : World P} {fuel : Nat} {b : Bool} {h : Heap P} : (∀ p, contents w p = C p) →
      create w (fun _ => true) fuel root = (.ok b, h) → History C root w h
  | load {w w' : World P} {fuel : Nat} {reload b : Bool} {h h' : Heap P} : History C root w h → (∀ p, contents w' p = C p) →
      load w' (fun _ => true) fuel reload h h.root = (.ok b, h') → History C root w' h'

/-- The file `p` was modified after the time recorded for the document `y`. -/
def modifiedSince (w : World P) (docs : List (Doc P)) (y : Nat) (p : Option P) : Bool :=
  match (p.bind w).map (·.mtime), timeOf docs y with
  | some m, some t => decide (t < m)
  | _, _ => false

/-- The file of a document, or of the document that includes it, was modified after the time recorded for the document. -/
def stale (w : World P) (docs : List (Doc P)) (y : Nat) : Bool :=
  modifiedSince w docs y (pathOf docs y) || modifiedSince w docs y (((docs[y]?).bind (·.parent)).bind (pathOf docs))

/-! ### Projects that change -/

/-- A document, and those below it. -/
inductive Below (docs : List (Doc P)) (x : Nat) : Nat → Prop
  | self : Below docs x x
  | sub {y z : Nat} {k : P} {d : Doc P} : Below docs x y → docs[y]? = some d → (k, z) ∈ d.subs → Below docs x z

/-- A document is loaded and has the text and the includes that its file has now. -/
def UpToDate (w : World P) (d : Doc P) : Prop :=
  d.loaded = true ∧ ∃ f, w d.path = some f ∧ f.sizeOk = true ∧ d.text = f.text ∧ f.includes = some d.includes

/-- What is seen of a document: its file, its text, its includes and its subdocuments. -/
def view (docs : List (Doc P)) (x : Nat) : Option (P × Str × List P × List P) :=
  (docs[x]?).map fun d => (d.path, d.text, d.includes, d.subs.map (·.1))

/-- The states of a project with any changes of its files: a root document is made, then files are edited, made and removed, and
documents are loaded, with or without success, in any order. A file that was changed or made has a time after `now`, which is after
the times of all files so far. -/
inductive Edits (root : P) : World P → Nat → Heap P → Prop
  | new {w : World P} {now : Nat} : (∀ p f, w p = some f → f.mtime ≤ now) →
      Edits root w now { docs := [newDoc w root none], root := 0, loads := [] }
  | edit {w w' : World P} {now now' : Nat} {h : Heap P} : Edits root w now h → (∀ p f, w' p = some f → w p = some f ∨ now < f.mtime) →
      (∀ p f, w' p = some f → f.mtime ≤ now') → now ≤ now' → Edits root w' now' h
  | load {w : World P} {now fuel x : Nat} {alive : Nat → Bool} {reload : Bool} {h : Heap P} : Edits root w now h →
      Edits root w now (load w alive fuel reload h x).2

end Verif.Documents.Spec
