import Verif.Model.BuildStop

/-! # Specification vocabulary for the build of a document -/

namespace Verif.Build

open Verif Verif.Decider

/-- The contents of the parameters of a step: of the files, all of which are there, and the other parameters as they are. -/
def Contents (fs : FS) (items : List Item) (bs : List Bytes) : Prop :=
  items.map (fun | .path p => fs p | .other b => some b) = bs.map some

/-- The file of a step is what its tool makes from the files there are. -/
def Current (fs : FS) (s : Step) : Prop := ∃ bs, Contents fs s.parameters bs ∧ fs s.out = some (s.tool bs)

/-- The digests of the inputs (with the action) and of the output of a step. -/
def Digests (c : Cfg) (fs : FS) (s : Step) (k o : Bytes) : Prop :=
  c.hashItems fs (s.parameters ++ [.other s.action]) = some k ∧ c.hashItems fs [.path s.out] = some o

/-- The steps there may ever be, and the states in which the files may ever be. -/
structure Scope where
  step : Step → Prop
  files : FS → Prop

/-- The digests tell what counts: if the inputs of two steps (or of one step at two times) have one digest and the file of one of
them is current, then that of the other one is current exactly if the outputs have one digest. This holds if there are no collisions and
what a tool makes is given by the action and the contents. -/
def Faithful (c : Cfg) (U : Scope) : Prop :=
  ∀ s t fs fs' k o o', U.step s → U.step t → U.files fs → U.files fs' → Digests c fs s k o → Digests c fs' t k o' → Current fs s →
    (Current fs' t ↔ o = o')

/-- The database tells the truth: whatever the files are, a step whose digests are recorded is current. -/
def Truthful (c : Cfg) (U : Scope) (db : Dict Bytes Bytes) : Prop :=
  ∀ s fs k o, U.step s → U.files fs → Digests c fs s k o → db.get? k = some o → Current fs s

/-- The step `i` is `n`, or part of the composite builder `n`. -/
inductive Part (P : Project) (subs : Nat → List Nat) : Nat → Nat → Prop
  | step (n : Nat) (s : Step) : P.node n = some (.step s) → Part P subs n n
  | group (n m i : Nat) (g : Group) : P.node n = some (.group g) → m ∈ subs n → Part P subs m i → Part P subs n i

/-- `p` is the output of a step for which `Q`. -/
def Made (P : Project) (Q : Nat → Prop) (p : Str) : Prop := ∃ j t, Q j ∧ P.node j = some (.step t) ∧ t.out = p

/-- Each parameter of a step that is the output of some step is the output of one for which `Q`. -/
def Covered (P : Project) (Q : Nat → Prop) (s : Step) : Prop :=
  ∀ p, Item.path p ∈ s.parameters → Made P (fun _ => True) p → Made P Q p

/-- The steps of `n` use what is made by steps for which `Q`, or by steps before them in a sequence, only. -/
inductive Guarded (P : Project) (subs : Nat → List Nat) : (Nat → Prop) → Nat → Prop
  | step (Q : Nat → Prop) (n : Nat) (s : Step) : P.node n = some (.step s) → Covered P Q s → Guarded P subs Q n
  | parallel (Q : Nat → Prop) (n : Nat) (g : Group) : P.node n = some (.group g) → g.parallel = true →
      (∀ m ∈ subs n, Guarded P subs Q m) → Guarded P subs Q n
  | sequence (Q : Nat → Prop) (n : Nat) (g : Group) : P.node n = some (.group g) → g.parallel = false →
      (∀ a m b, subs n = a ++ m :: b → Guarded P subs (fun i => Q i ∨ ∃ x ∈ a, Part P subs x i) m) → Guarded P subs Q n

/-- The builders of a project fit together. -/
structure Sound (P : Project) (U : Scope) : Prop where
  known : ∀ i s, P.node i = some (.step s) → U.step s
  /-- What the steps make are states in which the files may be. -/
  closed : ∀ i s fs bs, P.node i = some (.step s) → U.files fs → Contents fs s.parameters bs →
    U.files (fun p => if p = s.out then some (s.tool bs) else fs p)
  faithful : Faithful P.cfg U
  /-- The decision of a composite builder has other digests than those of steps (its action is another one). -/
  groups : ∀ n g, P.node n = some (.group g) → g.parallel = false → ∀ s fs fs' k, U.step s → U.files fs → U.files fs' →
    P.cfg.hashItems fs g.inputs = some k → P.cfg.hashItems fs' (s.parameters ++ [.other s.action]) ≠ some k
  decided : ∀ n g, P.node n = some (.group g) → g.parallel = false → g.inputs ≠ []
  /-- No step reads its own file. -/
  other : ∀ i s, P.node i = some (.step s) → Item.path s.out ∉ s.parameters
  /-- Two steps with one file do the same. -/
  twins : ∀ i j s t, P.node i = some (.step s) → P.node j = some (.step t) → s.out = t.out → s = t

/-- The builders were just made: no command was run. -/
def New (w : World) : Prop := ∀ i, w.leaf i = Builder.Leaf.new ∧ w.runs i = 0

/-- `S` are steps that need not be run: their digests are recorded, and what they use is made by steps of `S`. -/
def UpToDate (P : Project) (w : World) (S : Nat → Prop) : Prop :=
  ∀ i, S i → ∃ s k o, P.node i = some (.step s) ∧ Digests P.cfg w.fs s k o ∧ w.db.get? k = some o ∧ Covered P S s

/-- A composite builder that removes finished builders is parallel, or the steps of its sub-builders but the first one have no file yet
or are steps of `S`. -/
def Clears (P : Project) (w : World) (S : Nat → Prop) : Prop :=
  ∀ n g, P.node n = some (.group g) → g.clear = true → g.parallel = false → ∀ a m b, w.subs n = a ++ m :: b → a ≠ [] →
    ∀ i s, Part P w.subs m i → P.node i = some (.step s) → w.fs s.out = none ∨ S i

/-- The build of `root` can begin: the builders fit together and are new, the root builder uses what is made by its own steps and not by
other ones, and `S` are steps that need not be run. -/
structure Begins (P : Project) (U : Scope) (root : Nat) (w : World) (S : Nat → Prop) : Prop where
  sound : Sound P U
  files : U.files w.fs
  new : New w
  guarded : Guarded P w.subs (fun _ => False) root
  upToDate : UpToDate P w S
  clears : Clears P w S

/-- What the files and the database can be after any builds, whether they end or not and what they end with, with other builders each
time, also such that were interrupted at any time, and any edits of files between them; entries of the database may be lost between
builds, or all of it. The database is empty at first. -/
inductive Past (c : Cfg) (U : Scope) : FS → Dict Bytes Bytes → Prop
  | new (fs : FS) : U.files fs → Past c U fs []
  | edit (fs fs' : FS) (db : Dict Bytes Bytes) : Past c U fs db → U.files fs' → Past c U fs' db
  | forget (fs : FS) (db db' : Dict Bytes Bytes) : Past c U fs db → (∀ k o, db'.get? k = some o → db.get? k = some o) → Past c U fs db'
  | build (P : Project) (depth root rounds : Nat) (w : World) (S : Nat → Prop) : P.cfg = c → Begins P U root w S → Past c U w.fs w.db →
      Past c U (P.build depth root rounds w).2.fs (P.build depth root rounds w).2.db
  | stopped (P : Project) (stop : Stop) (depth root rounds : Nat) (w : World) (S : Nat → Prop) : P.cfg = c → Begins P U root w S →
      Past c U w.fs w.db →
      Past c U (P.buildStop (fun _ => none) stop depth root rounds w).2.fs (P.buildStop (fun _ => none) stop depth root rounds w).2.db

end Verif.Build
