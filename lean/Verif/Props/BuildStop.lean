import Verif.Props.Cli

/-!
# C83: builds that are interrupted

The theorems are about `Project.buildStop` and `Project.cliStop`, for any builders and any time of the interruption, and about the build
that comes after it.
-/

namespace Verif.Build

open Verif Verif.Decider Verif.Builder

/-- **C83.** After a build that was interrupted at any time, no entry of the database lies. -/
theorem C83_truthful {P : Project} {U : Scope} {a : Adds} {root : Nat} {w : World} {S : Nat → Prop} (hp : PastAdds P.cfg U w.fs w.db)
    (hb : BeginsAdds P U a root w S) (stop : Stop) (depth rounds : Nat) :
    Truthful P.cfg U (P.buildStop a stop depth root rounds w).2.db :=
  C79_truthful (.stopped P a stop depth root rounds w S rfl hb hp)

/-- **C83.** A build is interrupted at any time. Then files may be partly written, or edited, and entries of the database may be lost. If
the next build, also with other builders, reports 'done', then the file of each step is what the tool of that step makes from the files
there are. -/
theorem C83_recovers {P P' : Project} {U : Scope} {a a' : Adds} {root root' : Nat} {w w' : World} {S S' : Nat → Prop}
    (hp : PastAdds P.cfg U w.fs w.db) (hb : BeginsAdds P U a root w S) (stop : Stop) (depth rounds : Nat)
    (hdb : ∀ k o, w'.db.get? k = some o → (P.buildStop a stop depth root rounds w).2.db.get? k = some o)
    (hcfg : P'.cfg = P.cfg) (hb' : BeginsAdds P' U a' root' w' S') (depth' rounds' : Nat)
    (hd : (P'.buildAdds a' depth' root' rounds' w').1 = some (.ok .done)) (i : Nat) (s : Step)
    (hi : Part P' (grown w'.subs a' (P'.buildAdds a' depth' root' rounds' w').2.runs) root' i) (hn : P'.node i = some (.step s)) :
    Current (P'.buildAdds a' depth' root' rounds' w').2.fs s := by
  have h1 : PastAdds P'.cfg U w'.fs w'.db := by
    rw [hcfg]
    exact .edit _ _ _ (.forget _ _ _ (.stopped P a stop depth root rounds w S rfl hb hp) hdb) (hb'.2 w'.runs).files
  exact (C79_current h1 hb' depth' rounds' hd i s hi hn).1

/-- **C83.** After an interrupted build, the next build gives the same files as a build from scratch. -/
theorem C83_clean {P P' : Project} {U U' : Scope} {root : Nat} {w0 w w' : World} {S0 S S' : Nat → Prop} (hp : Past P.cfg U w0.fs w0.db)
    (hb0 : Begins P U root w0 S0) (stop : Stop) (depth0 rounds0 : Nat)
    (hdb : ∀ k o, w.db.get? k = some o → (P.buildStop (fun _ => none) stop depth0 root rounds0 w0).2.db.get? k = some o)
    (hb : Begins P U root w S) (hnew : w'.db = []) (hb' : Begins P' U' root w' S') (hnode : P'.node = P.node)
    (hsub : w'.subs = w.subs) (depth rounds depth' rounds' : Nat) (hd : (P.build depth root rounds w).1 = some (.ok .done))
    (hd' : (P'.build depth' root rounds' w').1 = some (.ok .done)) (hsrc : ∀ p, ¬ Made P (fun _ => True) p → w.fs p = w'.fs p)
    (i : Nat) (s : Step) (hi : Part P w.subs root i) (hn : P.node i = some (.step s)) :
    (P.build depth root rounds w).2.fs s.out = (P'.build depth' root rounds' w').2.fs s.out :=
  C74_clean (.edit _ _ _ (.forget _ _ _ (.stopped P stop depth0 root rounds0 w0 S0 rfl hb0 hp) hdb) hb.files) hb
    (by rw [hnew]; exact .new _ hb'.files) hb' hnode hsub depth rounds depth' rounds' hd hd' hsrc i s hi hn

/-- A project can be built after another one was, also if that was interrupted. -/
theorem Prepared.afterStop {U : Scope} {d : Disk} {f e : Env} {Sf Se : Nat → Prop} (hf : Prepared U d f Sf) (he : Prepared U d e Se)
    (ha : Apart f.project e.project) (hc : f.cache = e.cache → f.project.cfg = e.project.cfg) (stop : Stop) (depth rounds : Nat) :
    Prepared U (f.left d (f.project.cliStop f.adds stop depth f.root rounds (f.at d)).2) e Se := by
  obtain ⟨hpast, _, hbeg⟩ := hf
  obtain ⟨_, hfs, hmem⟩ := hbeg.cliStopped (C80_truthful hpast) stop depth rounds
  have hsrc : ∀ p, ¬ Made f.project (fun _ => True) p → (f.project.cliStop f.adds stop depth f.root rounds (f.at d)).2.fs p = d.fs p :=
    fun p h => cliStop_sources f.adds stop depth f.root rounds (f.at d) p h
  by_cases hk : f.cache = e.cache
  · have hdb : (f.left d (f.project.cliStop f.adds stop depth f.root rounds (f.at d)).2).dbs e.cache =
        (f.project.cliStop f.adds stop depth f.root rounds (f.at d)).2.db := by
      simp [Env.left, put, hk]
    refine he.same (apart_same ha hsrc) ?_ hfs ?_
    · rw [hdb, ← hc hk]
      exact .commandStopped f.project f.adds stop depth f.root rounds (f.at d) Sf rfl hbeg hpast
    · rw [hdb, ← hc hk, ← hk]
      exact hmem
  · have hdb : (f.left d (f.project.cliStop f.adds stop depth f.root rounds (f.at d)).2).dbs e.cache = d.dbs e.cache := by
      simp [Env.left, put, Ne.symm hk]
    refine he.same (apart_same ha hsrc) ?_ hfs ?_
    · rw [hdb]
      exact .edit _ _ _ he.1 hfs
    · rw [hdb]
      exact fun _ _ _ _ _ _ _ h => h

/-- **C83.** What is on the disk after the command was interrupted, at any time, in any of its projects, is something that builds and edits
leave, for the databases of its projects and for others: the theorems of C80 hold for the next command. -/
theorem C83_past {U : Scope} {S : Env → Nat → Prop} {es : List Env} {d : Disk} (hsep : Separate es)
    (hp : ∀ e ∈ es, Prepared U d e (S e)) (stop : Stop) (depth rounds : Nat) (c : Cfg) (b : Str)
    (hc : ∀ e ∈ es, b = e.cache → c = e.project.cfg) (hb : PastCli c U d.fs (d.dbs b)) :
    PastCli c U (buildAllStop stop depth rounds es d).2.fs ((buildAllStop stop depth rounds es d).2.dbs b) := by
  induction es generalizing d with
  | nil => exact hb
  | cons f es ih =>
    obtain ⟨hfe, hsep'⟩ := List.pairwise_cons.1 hsep
    have hf := hp f (by simp)
    have hnext : ∀ e ∈ es, Prepared U (f.left d (f.project.cliStop f.adds stop depth f.root rounds (f.at d)).2) e (S e) :=
      fun e he => hf.afterStop (hp e (by simp [he])) (hfe e he).1 (hfe e he).2.2 stop depth rounds
    have h1 : PastCli c U (f.left d (f.project.cliStop f.adds stop depth f.root rounds (f.at d)).2).fs
        ((f.left d (f.project.cliStop f.adds stop depth f.root rounds (f.at d)).2).dbs b) := by
      by_cases hk : b = f.cache
      · simp only [Env.left, put, if_pos hk]
        rw [hc f (by simp) hk]
        exact .commandStopped f.project f.adds stop depth f.root rounds (f.at d) (S f) rfl hf.2.2 hf.1
      · simp only [Env.left, put, if_neg hk]
        exact .edit _ _ _ hb (hf.2.2.cliStopped (C80_truthful hf.1) stop depth rounds).2.1
    have h2 := ih hsep' hnext (fun e he => hc e (by simp [he])) h1
    unfold buildAllStop
    generalize f.project.cliStop f.adds stop depth f.root rounds (f.at d) = q at h1 h2 ⊢
    obtain ⟨r, w1⟩ := q
    rcases r with _ | (x | st1)
    · exact h1
    · exact h1
    · exact h2

/-- **C83.** The command is interrupted at any time, in any of its projects. Then files may be partly written, or edited, and entries of the
databases may be lost. If the next command, of any projects, prints 'done' for a project, then the file of each step of it is what the
tool of that step makes from the files there are. -/
theorem C83_command {U : Scope} {S S' : Env → Nat → Prop} {es es' : List Env} {d d' : Disk} (hsep : Separate es)
    (hp : ∀ e ∈ es, Prepared U d e (S e)) (stop : Stop) (depth rounds : Nat) (hsep' : Separate es')
    (hdb : ∀ e ∈ es', (∀ f ∈ es, e.cache = f.cache → e.project.cfg = f.project.cfg) ∧
      PastCli e.project.cfg U d.fs (d.dbs e.cache) ∧ (∃ g, e.project.node e.root = some (.group g)) ∧
      BeginsAdds e.project U e.adds e.root { e.made with fs := d'.fs, db := d'.dbs e.cache } (S' e) ∧
      ∀ k o, (d'.dbs e.cache).get? k = some o → ((buildAllStop stop depth rounds es d).2.dbs e.cache).get? k = some o)
    (depth' rounds' k : Nat) (e : Env) (he : es'[k]? = some e) (w : World)
    (hk : (buildAll depth' rounds' es' d').1[k]? = some (.done, w)) (i : Nat) (s : Step)
    (hi : Part e.project (grown e.made.subs e.adds w.runs) e.root i) (hn : e.project.node i = some (.step s)) :
    Current (buildAll depth' rounds' es' d').2.2.fs s := by
  refine (C80_current (U := U) (S := S') hsep' (fun f hf => ?_) depth' rounds' k e he w hk i s hi hn).1
  obtain ⟨h1, h2, h3, h4, h5⟩ := hdb f hf
  exact ⟨.edit _ _ _ (.forget _ _ _ (C83_past hsep hp stop depth rounds f.project.cfg f.cache h1 h2) h5) (h4.2 (fun _ => 0)).files, h3, h4⟩

/-- **C83.** Files that are not made by a step are left as they are, also if the build is interrupted. -/
theorem C83_sources (P : Project) (a : Adds) (stop : Stop) (depth root rounds : Nat) (w : World) (p : Str)
    (hp : ¬ Made P (fun _ => True) p) : (P.buildStop a stop depth root rounds w).2.fs p = w.fs p ∧
      (P.cliStop a stop depth root rounds w).2.fs p = w.fs p :=
  ⟨buildStop_sources a stop depth root rounds w p hp, cliStop_sources a stop depth root rounds w p hp⟩

/-- **C83.** A build that is not interrupted is a build, and a command that is not interrupted is a command. -/
theorem C83_not_stopped (P : Project) (a : Adds) (depth root rounds : Nat) (w : World) (es : List Env) (d : Disk) :
    P.buildStop a (fun _ => false) depth root rounds w = P.buildAdds a depth root rounds w ∧
      buildAllStop (fun _ => false) depth rounds es d = (buildAll depth rounds es d).2 := by
  refine ⟨by unfold Project.buildStop; rw [opsStop_never, buildOn_adds], ?_⟩
  induction es generalizing d with
  | nil => rfl
  | cons e es ih =>
    unfold buildAllStop buildAll
    rw [cliStop_never]
    generalize e.project.buildCli e.adds depth e.root rounds (e.at d) = q
    obtain ⟨r, w1⟩ := q
    rcases r with _ | (x | st1)
    · rfl
    · rfl
    · exact ih _

/-! ### An example: a document whose build is killed -/

/-- The process is killed when the new file is written and nothing is recorded. -/
def kill : Stop := fun w => w.fs "doc.tex".toList == some [11]

/-- The document was built and edited, and its second build is killed. -/
def killed : Option (Except Builder.Err Status) × World :=
  (paper false true slowly).buildStop (fun _ => none) kill 5 0 20 (anew (draft 20 first.2.fs) first.2.db)

/-- The file is partly written. -/
def torn (fs : FS) : FS := fun p => if p = "doc.tex".toList then some [99] else fs p

/-- The next build, of the document as it was at first. -/
def third : Option (Except Builder.Err Status) × World :=
  (paper false true slowly).build 5 0 20 (anew (draft 10 (torn killed.2.fs)) killed.2.db)

theorem killed_past : Past tiny small killed.2.fs killed.2.db := by
  have hf : small.files (draft 20 first.2.fs) := draft_small 20 (by decide) _ first_past.files
  have hb := paper_begins false true slowly (draft 20 first.2.fs) first.2.db hf (by intro h; cases h)
  generalize hw : anew (draft 20 first.2.fs) first.2.db = w at hb
  have hfs : w.fs = draft 20 first.2.fs := hw ▸ (anew_eq _ _).1
  have hdb : w.db = first.2.db := hw ▸ (anew_eq _ _).2.1
  have hp : Past tiny small w.fs w.db := by rw [hfs, hdb]; exact .edit _ _ _ first_past hf
  have hk : killed = (paper false true slowly).buildStop (fun _ => none) kill 5 0 20 w := by subst hw; unfold killed; rfl
  rw [hk]
  exact Past.stopped (paper false true slowly) kill 5 0 20 w (fun _ => False) rfl hb hp

/-- The hypotheses of the theorems are met: the build is interrupted after it wrote the file; the next one makes both files anew. -/
example : killed.1 = some (.error .exception) ∧ killed.2.fs "doc.tex".toList = some [11] ∧ killed.2.db = first.2.db ∧
    small.files (draft 10 (torn killed.2.fs)) ∧
    Begins (paper false true slowly) small 0 (anew (draft 10 (torn killed.2.fs)) killed.2.db) (fun _ => False) ∧
    third.1 = some (.ok .done) ∧ third.2.fs "doc.tex".toList = some [6] ∧ third.2.fs "doc.pdf".toList = some [5] ∧
    third.2.runs 2 = 1 := by
  have h1 : killed.1 = some (.error .exception) ∧ killed.2.fs "doc.tex".toList = some [11] ∧ killed.2.db = first.2.db := by decide +kernel
  have h2 : third.1 = some (.ok .done) ∧ third.2.fs "doc.tex".toList = some [6] ∧ third.2.fs "doc.pdf".toList = some [5] ∧
    third.2.runs 2 = 1 := by decide +kernel
  have hf : small.files (draft 10 (torn killed.2.fs)) := by
    refine draft_small 10 (by decide) _ fun p b hb => ?_
    unfold torn at hb
    split at hb
    · injection hb with hb
      exact ⟨99, hb.symm, by decide⟩
    · exact killed_past.files p b hb
  exact ⟨h1.1, h1.2.1, h1.2.2, hf, paper_begins false true slowly _ _ hf (by intro h; cases h), h2⟩

/-- The command of two projects is killed in the second one. -/
example : (∃ e, (buildAllStop (fun w => w.fs "doc.tex".toList == some [6]) 5 30 [albumEnv, paperEnv] ⟨written, fun _ => []⟩).1 = .raised e) ∧
    (buildAllStop (fun w => w.fs "doc.tex".toList == some [6]) 5 30 [albumEnv, paperEnv] ⟨written, fun _ => []⟩).2.fs "fig.svg".toList =
      some [12] ∧
    Separate [albumEnv, paperEnv] ∧ ∀ e ∈ [albumEnv, paperEnv], Prepared both ⟨written, fun _ => []⟩ e (fun _ => False) := by
  have hw : small.files written := works_small 10 20 (by decide) (by decide) _ none_small
  have hr : ∀ x : End, (match x with | .raised _ => true | _ => false) = true → ∃ e, x = .raised e := by
    intro x h; cases x <;> first | exact ⟨_, rfl⟩ | cases h
  refine ⟨hr _ (by decide +kernel), by decide +kernel, two_separate, fun e he => ?_⟩
  rcases List.mem_cons.1 he with rfl | he
  · exact album_prepared _ hw
  · rw [List.mem_singleton.1 he]; exact paper_prepared _ hw

end Verif.Build
