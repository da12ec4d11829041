import Verif.Spec.BuildAdds
import Verif.Model.Cli

/-! # Specification vocabulary for the command `build` -/

namespace Verif.Build

open Verif Verif.Decider

/-- A project does not make files that another one makes or uses. -/
def Apart (P Q : Project) : Prop :=
  ∀ i j s t, P.node i = some (.step s) → Q.node j = some (.step t) → s.out ≠ t.out ∧ Item.path s.out ∉ t.parameters

/-- The environments are of different projects, and those with one database have the same digests. -/
def Separate (es : List Env) : Prop :=
  es.Pairwise fun e f => Apart e.project f.project ∧ Apart f.project e.project ∧ (e.cache = f.cache → e.project.cfg = f.project.cfg)

/-- As `PastAdds`, also with commands, or parts of them, that build a project with the database. -/
inductive PastCli (c : Cfg) (U : Scope) : FS → Dict Bytes Bytes → Prop
  | new (fs : FS) : U.files fs → PastCli c U fs []
  | edit (fs fs' : FS) (db : Dict Bytes Bytes) : PastCli c U fs db → U.files fs' → PastCli c U fs' db
  | forget (fs : FS) (db db' : Dict Bytes Bytes) : PastCli c U fs db → (∀ k o, db'.get? k = some o → db.get? k = some o) → PastCli c U fs db'
  | build (P : Project) (a : Adds) (depth root rounds : Nat) (w : World) (S : Nat → Prop) : P.cfg = c → BeginsAdds P U a root w S →
      PastCli c U w.fs w.db → PastCli c U (P.buildAdds a depth root rounds w).2.fs (P.buildAdds a depth root rounds w).2.db
  | command (P : Project) (a : Adds) (depth root rounds : Nat) (w : World) (S : Nat → Prop) : P.cfg = c → BeginsAdds P U a root w S →
      PastCli c U w.fs w.db → PastCli c U (P.buildCli a depth root rounds w).2.fs (P.buildCli a depth root rounds w).2.db
  | stopped (P : Project) (a : Adds) (stop : Stop) (depth root rounds : Nat) (w : World) (S : Nat → Prop) : P.cfg = c →
      BeginsAdds P U a root w S → PastCli c U w.fs w.db →
      PastCli c U (P.buildStop a stop depth root rounds w).2.fs (P.buildStop a stop depth root rounds w).2.db
  | commandStopped (P : Project) (a : Adds) (stop : Stop) (depth root rounds : Nat) (w : World) (S : Nat → Prop) : P.cfg = c →
      BeginsAdds P U a root w S → PastCli c U w.fs w.db →
      PastCli c U (P.cliStop a stop depth root rounds w).2.fs (P.cliStop a stop depth root rounds w).2.db

/-- The project of an environment can be built: the files and its database are left by earlier builds and edits, and `S` are steps that
need not be run. -/
def Prepared (U : Scope) (d : Disk) (e : Env) (S : Nat → Prop) : Prop :=
  PastCli e.project.cfg U d.fs (d.dbs e.cache) ∧ (∃ g, e.project.node e.root = some (.group g)) ∧
    BeginsAdds e.project U e.adds e.root { e.made with fs := d.fs, db := d.dbs e.cache } S

end Verif.Build
