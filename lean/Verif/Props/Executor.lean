import Verif.Lemmas.Executor

/-!
# C77: the results of commands

The statements use `Spec.output`, `Spec.errors` and `Spec.ticks`: all that a program writes, and the time it works.
-/

namespace Verif.Executor

open Verif

theorem run_ok (cap timeout : Nat) (p : Program) (ho : (Spec.output p).length ≤ cap) (he : (Spec.errors p).length ≤ cap)
    (ht : Spec.ticks p ≤ timeout) : run cap timeout p = .ok ⟨p.code, p.args, latin1 (Spec.output p), latin1 (Spec.errors p)⟩ := by
  rw [run, wait_some cap p.acts timeout [] [] ho he ht]
  rfl

/-- A program that ends in time, and writes no more than the pipes hold, gives its exit code and all that it has written. -/
theorem C77_result_partial (cap timeout : Nat) (p : Program) (ho : (Spec.output p).length ≤ cap) (he : (Spec.errors p).length ≤ cap)
    (ht : Spec.ticks p ≤ timeout) :
    ∃ r, run cap timeout p = .ok r ∧ r.returncode = p.code ∧ r.args = p.args ∧ Spec.Latin1 (Spec.output p) r.stdout ∧
      Spec.Latin1 (Spec.errors p) r.stderr :=
  ⟨_, run_ok cap timeout p ho he ht, rfl, rfl, latin1_spec _, latin1_spec _⟩

/-- Nothing is lost when the bytes are made a text: there are no other bytes with the same text. -/
theorem C77_lossless (b b' : Bytes) (s : Str) (h : Spec.Latin1 b s) (h' : Spec.Latin1 b' s) : b = b' := h.unique h'

/-- Any other program ends with an exception, at the timeout. -/
theorem C77_timeout (cap timeout : Nat) (p : Program)
    (h : ¬ ((Spec.output p).length ≤ cap ∧ (Spec.errors p).length ≤ cap ∧ Spec.ticks p ≤ timeout)) :
    run cap timeout p = .error .expired := by
  rw [run, wait_none cap p.acts timeout [] [] (Nat.zero_le _) (Nat.zero_le _) h]

/-- A build of such a program is done if it exits with zero and the output file is there, and otherwise fails; the exception has the
command, the exit code and all that the program has written. -/
theorem C77_reported_partial (cap timeout : Nat) (p : Program) (outExists : Bool) (ho : (Spec.output p).length ≤ cap)
    (he : (Spec.errors p).length ≤ cap) (ht : Spec.ticks p ≤ timeout) :
    (p.code = 0 → outExists = true → report outExists (run cap timeout p) = .done) ∧
    (p.code = 0 → outExists = false → report outExists (run cap timeout p) = .missingOutfile) ∧
    (p.code ≠ 0 → ∃ e, report outExists (run cap timeout p) = .failed e ∧ e.returncode = p.code ∧ e.cmd = join " ".toList p.args ∧
      Spec.Latin1 (Spec.output p) e.shellOut ∧ Spec.Latin1 (Spec.errors p) e.shellErr) := by
  rw [run_ok cap timeout p ho he ht]
  refine ⟨?_, ?_, ?_⟩
  · intro h h'; simp [report, runtimeSuccess, h, h']
  · intro h h'; simp [report, runtimeSuccess, h, h']
  · intro h
    exact ⟨_, by rw [report, if_neg (by simp [runtimeSuccess, h])], rfl, rfl, latin1_spec _, latin1_spec _⟩

/-- A program that succeeds at once, but writes more than a pipe holds, is never seen to succeed: its build fails at the timeout. -/
theorem C77_result_refuted (cap timeout : Nat) : ∃ p : Program, p.code = 0 ∧ Spec.ticks p = 0 ∧ (Spec.output p).length = cap + 1 ∧
    report true (run cap timeout p) = .raised ∧ waited cap timeout [] [] p.acts = timeout := by
  refine ⟨⟨[], [.out (List.replicate (cap + 1) 65)], 0⟩, rfl, rfl, by simp [Spec.output], ?_, ?_⟩
  · rw [C77_timeout]
    · rfl
    · rintro ⟨h, _⟩
      simp [Spec.output] at h
      omega
  · rw [waited, if_neg (by simp)]

/-- A command takes a thread of the pool as long as it works, and as long as the timeout if it does not end in time or writes more than
the pipes hold. -/
theorem C77_takes (cap timeout : Nat) (p : Program) :
    waited cap timeout [] [] p.acts =
      if (Spec.output p).length ≤ cap ∧ (Spec.errors p).length ≤ cap ∧ Spec.ticks p ≤ timeout then Spec.ticks p else timeout := by
  by_cases h : (Spec.output p).length ≤ cap ∧ (Spec.errors p).length ≤ cap ∧ Spec.ticks p ≤ timeout
  · rw [if_pos h]; exact waited_some cap p.acts timeout [] [] h.1 h.2.1 h.2.2
  · rw [if_neg h]; exact waited_none cap p.acts timeout [] [] (Nat.zero_le _) (Nat.zero_le _) h

/-- The report agrees with the model of the status of a builder. -/
theorem report_status (l : Builder.Leaf) (s : Builder.Seen) (r : Except Timeout Result) (hm : s.missing = false) (hn : s.needed = true)
    (hf : l.future = some (match r with | .error _ => .raised | .ok x => .ended x.returncode)) :
    (l.status s).1 = (match report s.outExists r with
      | .done => .ok .done
      | .missingOutfile => .ok .missingOutfile
      | .failed _ => .error .buildError
      | .raised => .error .exception) := by
  obtain ⟨f, pf, n⟩ := l
  simp only at hf
  subst hf
  cases pf <;> cases r with
  | error e => simp [Builder.Leaf.status, Builder.Leaf.missingParameters, hm, hn, report]
  | ok x =>
    simp only [Builder.Leaf.status, Builder.Leaf.missingParameters, hm, hn, report, runtimeSuccess]
    by_cases h0 : x.returncode = 0 <;> cases ho : s.outExists <;> simp [h0]

theorem queue_submit {w : Nat} {d : Nat → Nat} (p : Pool) (op : Op) :
    (p.step w d op).queue.length ≤ p.queue.length + (Spec.submitted [op]).length := by
  cases op with
  | submit j => simp only [Pool.step, Pool.submit, Pool.fill, List.length_drop, List.length_append, Spec.submitted]; simp
  | tick => simp only [Pool.step, Pool.tick, Pool.fill, List.length_drop, Spec.submitted]; simp

theorem queue_steps {w : Nat} {d : Nat → Nat} (p : Pool) (ops : List Op) :
    (p.steps w d ops).queue.length ≤ p.queue.length + (Spec.submitted ops).length := by
  induction ops generalizing p with
  | nil => simp [Pool.steps]
  | cons op ops ih =>
    have h1 := ih (p.step w d op)
    have h2 := queue_submit (w := w) (d := d) p op
    have h3 : (Spec.submitted (op :: ops)).length = (Spec.submitted [op]).length + (Spec.submitted ops).length := by
      cases op <;> simp [Spec.submitted]; omega
    simp only [Pool.steps, List.foldl_cons] at h1 ⊢
    omega

/-- Every command that is handed to the pool ends, whatever the programs do, how many commands there are, and when they are handed in:
at the latest when the time of the commands before it and twice the timeout have passed. -/
theorem C77_ends (cap timeout w : Nat) (hw : 1 ≤ w) (prog : Nat → Program) (before after : List Op) (j : Nat)
    (h : ((Spec.submitted before).length + 2) * (timeout + 1) ≤ Spec.passed after) :
    j ∈ (Pool.new.steps w (fun i => waited cap timeout [] [] (prog i).acts) (before ++ .submit j :: after)).ended := by
  have hd : ∀ i, waited cap timeout [] [] (prog i).acts ≤ timeout := fun i => waited_le _ _ _ _ _
  have hs : Sound w timeout (Pool.new.steps w (fun i => waited cap timeout [] [] (prog i).acts) before) :=
    Sound.steps hd ⟨by simp [Pool.new], by simp [Pool.new], by simp [Pool.new]⟩ before
  have hq := queue_steps (w := w) (d := fun i => waited cap timeout [] [] (prog i).acts) Pool.new before
  rw [Pool.steps, List.foldl_append, List.foldl_cons]
  refine within_steps hw hd (n := ((Spec.submitted before).length + 2) * (timeout + 1)) after ?_ (hs.step hd (.submit j)) h
  refine (within_submitted hw hd hs j).mono (Nat.mul_le_mul_right _ ?_)
  simp only [Pool.new, List.length_nil] at hq
  exact Nat.add_le_add_right (by simpa [Pool.new] using hq) 2

/-- All the commands of the pool. -/
def Pool.all (p : Pool) : List Nat := p.queue ++ p.running.map (·.1) ++ p.ended

theorem all_fill (w : Nat) (d : Nat → Nat) (p : Pool) : (p.fill w d).all.Perm p.all := by
  simp only [Pool.all, Pool.fill, List.map_append, List.map_map]
  have e : (fun x : Nat × Nat => x.1) ∘ (fun j => (j, d j)) = id := rfl
  rw [e, List.map_id]
  refine List.Perm.append_right _ ?_
  have h : (p.queue.take (w - p.running.length) ++ p.queue.drop (w - p.running.length)).Perm p.queue := by rw [List.take_append_drop]
  refine List.Perm.trans ?_ (List.Perm.append_right _ h)
  refine List.Perm.trans (List.perm_append_comm) ?_
  rw [List.append_assoc]
  exact List.perm_append_comm.trans (by rw [List.append_assoc])

theorem all_step (w : Nat) (d : Nat → Nat) (p : Pool) (op : Op) : (p.step w d op).all.Perm (p.all ++ Spec.submitted [op]) := by
  cases op with
  | submit j =>
    refine (all_fill w d _).trans ?_
    simp only [Pool.all, Spec.submitted, List.append_assoc]
    exact List.Perm.append_left _ (by
      simp only [List.filterMap_cons, List.filterMap_nil]
      refine List.perm_append_comm.trans ?_
      simp only [List.append_assoc]; exact List.Perm.refl _)
  | tick =>
    refine (all_fill w d _).trans ?_
    simp only [Pool.all, Spec.submitted, List.append_assoc, List.map_map]
    simp only [List.filterMap_cons, List.filterMap_nil, List.append_nil]
    refine List.Perm.append_left _ ?_
    have e : (fun x : Nat × Nat => x.1) ∘ (fun r => (r.1, r.2 - 1)) = (fun x : Nat × Nat => x.1) := rfl
    rw [e]
    have h : ((p.running.filter (fun r => 0 < r.2)).map (·.1) ++ (p.running.filter (fun r => r.2 = 0)).map (·.1)).Perm
        (p.running.map (·.1)) := by
      rw [← List.map_append]
      refine List.Perm.map _ ?_
      have := List.filter_append_perm (fun r : Nat × Nat => decide (0 < r.2)) p.running
      refine List.Perm.trans (List.Perm.append_left _ ?_) this
      rw [List.filter_congr (q := fun r : Nat × Nat => !decide (0 < r.2)) (by
        intro r _; by_cases h : r.2 = 0 <;> simp [h]; omega)]
    refine List.Perm.trans ?_ (List.Perm.append_right _ h)
    rw [List.append_assoc]
    exact List.Perm.append_left _ List.perm_append_comm

theorem all_steps (w : Nat) (d : Nat → Nat) (p : Pool) (ops : List Op) : (p.steps w d ops).all.Perm (p.all ++ Spec.submitted ops) := by
  induction ops generalizing p with
  | nil => simp [Pool.steps, Spec.submitted]
  | cons op ops ih =>
    refine (ih (p.step w d op)).trans ?_
    have e : Spec.submitted (op :: ops) = Spec.submitted [op] ++ Spec.submitted ops := by cases op <;> rfl
    rw [e, ← List.append_assoc]
    exact List.Perm.append_right _ (all_step w d p op)

/-- No more commands run at once than there are threads, and each command that was handed in is in one place: it waits, runs, or has
ended. -/
theorem C77_bounded (cap timeout w : Nat) (prog : Nat → Program) (ops : List Op) (p : Pool)
    (hp : p = Pool.new.steps w (fun i => waited cap timeout [] [] (prog i).acts) ops) :
    p.running.length ≤ w ∧ (p.queue ++ p.running.map (·.1) ++ p.ended).Perm (Spec.submitted ops) := by
  subst hp
  refine ⟨(Sound.steps (T := timeout) (fun i => waited_le _ _ _ _ _) ⟨by simp [Pool.new], by simp [Pool.new], by simp [Pool.new]⟩ ops).bounded, ?_⟩
  exact all_steps w _ Pool.new ops

/-! ## Examples -/

/-- A program that prints a warning, works and fails. -/
def failing : Program := ⟨["pdflatex".toList, "a.tex".toList], [.out [72, 105], .work, .err [233], .work], 1⟩

example : (Spec.output failing).length ≤ 4 ∧ (Spec.errors failing).length ≤ 4 ∧ Spec.ticks failing ≤ 15 ∧ failing.code ≠ 0 := by decide

example : report true (run 4 15 failing) = .failed ⟨"pdflatex a.tex".toList, 1, "Hi".toList, "é".toList⟩ := by decide +kernel

/-- It works for two ticks. -/
example : ¬ ((Spec.output failing).length ≤ 4 ∧ (Spec.errors failing).length ≤ 4 ∧ Spec.ticks failing ≤ 1) := by decide

example : ((Spec.submitted [.submit 0, .tick, .submit 1]).length + 2) * (2 + 1) ≤ Spec.passed (.submit 2 :: List.replicate 12 .tick) := by
  decide

end Verif.Executor
