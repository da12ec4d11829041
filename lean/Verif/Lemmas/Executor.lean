import Verif.Spec.Executor

/-! # Lemmas on the execution of commands -/

namespace Verif.Executor

open Verif

def outs (l : List Act) : Bytes := l.flatMap fun | .out b => b | _ => []
def errs (l : List Act) : Bytes := l.flatMap fun | .err b => b | _ => []

theorem wait_some (cap : Nat) (l : List Act) (t : Nat) (o e : Bytes) (ho : (o ++ outs l).length ≤ cap) (he : (e ++ errs l).length ≤ cap)
    (ht : l.count .work ≤ t) : wait cap t o e l = some (o ++ outs l, e ++ errs l) := by
  induction l generalizing t o e with
  | nil => simp [wait, outs, errs]
  | cons a l ih =>
    cases a with
    | out b =>
      have e1 : outs (.out b :: l) = b ++ outs l := rfl
      have e2 : errs (.out b :: l) = errs l := rfl
      rw [e1] at ho; rw [e2] at he
      rw [wait, if_pos (by simp only [List.length_append] at ho; omega), ih t (o ++ b) e (by simpa using ho) he (by simpa using ht), e1, e2]
      simp
    | err b =>
      have e1 : outs (.err b :: l) = outs l := rfl
      have e2 : errs (.err b :: l) = b ++ errs l := rfl
      rw [e1] at ho; rw [e2] at he
      rw [wait, if_pos (by simp only [List.length_append] at he; omega), ih t o (e ++ b) ho (by simpa using he) (by simpa using ht), e1, e2]
      simp
    | work =>
      rw [List.count_cons_self] at ht
      obtain ⟨t, rfl⟩ : ∃ k, t = k + 1 := ⟨t - 1, by omega⟩
      rw [wait]
      exact ih t o e ho he (by omega)

theorem wait_none (cap : Nat) (l : List Act) (t : Nat) (o e : Bytes) (ho : o.length ≤ cap) (he : e.length ≤ cap)
    (h : ¬ ((o ++ outs l).length ≤ cap ∧ (e ++ errs l).length ≤ cap ∧ l.count .work ≤ t)) : wait cap t o e l = none := by
  induction l generalizing t o e with
  | nil => exact absurd ⟨by simpa [outs] using ho, by simpa [errs] using he, by simp⟩ h
  | cons a l ih =>
    cases a with
    | out b =>
      rw [wait]
      by_cases hb : o.length + b.length ≤ cap
      · rw [if_pos hb]
        refine ih t (o ++ b) e (by simpa using hb) he ?_
        rintro ⟨h1, h2, h3⟩
        exact h ⟨by simpa [outs] using h1, h2, by simpa using h3⟩
      · rw [if_neg hb]
    | err b =>
      rw [wait]
      by_cases hb : e.length + b.length ≤ cap
      · rw [if_pos hb]
        refine ih t o (e ++ b) ho (by simpa using hb) ?_
        rintro ⟨h1, h2, h3⟩
        exact h ⟨h1, by simpa [errs] using h2, by simpa using h3⟩
      · rw [if_neg hb]
    | work =>
      cases t with
      | zero => rfl
      | succ t =>
        rw [wait]
        refine ih t o e ho he ?_
        rintro ⟨h1, h2, h3⟩
        exact h ⟨h1, h2, by rw [List.count_cons_self]; omega⟩

theorem waited_some (cap : Nat) (l : List Act) (t : Nat) (o e : Bytes) (ho : (o ++ outs l).length ≤ cap) (he : (e ++ errs l).length ≤ cap)
    (ht : l.count .work ≤ t) : waited cap t o e l = l.count .work := by
  induction l generalizing t o e with
  | nil => simp [waited]
  | cons a l ih =>
    cases a with
    | out b =>
      have e1 : outs (.out b :: l) = b ++ outs l := rfl
      have e2 : errs (.out b :: l) = errs l := rfl
      rw [e1] at ho; rw [e2] at he
      rw [waited, if_pos (by simp only [List.length_append] at ho; omega), ih t (o ++ b) e (by simpa using ho) he (by simpa using ht)]
      simp
    | err b =>
      have e1 : outs (.err b :: l) = outs l := rfl
      have e2 : errs (.err b :: l) = b ++ errs l := rfl
      rw [e1] at ho; rw [e2] at he
      rw [waited, if_pos (by simp only [List.length_append] at he; omega), ih t o (e ++ b) ho (by simpa using he) (by simpa using ht)]
      simp
    | work =>
      rw [List.count_cons_self] at ht ⊢
      obtain ⟨t, rfl⟩ : ∃ k, t = k + 1 := ⟨t - 1, by omega⟩
      rw [waited, ih t o e ho he (by omega)]

theorem waited_none (cap : Nat) (l : List Act) (t : Nat) (o e : Bytes) (ho : o.length ≤ cap) (he : e.length ≤ cap)
    (h : ¬ ((o ++ outs l).length ≤ cap ∧ (e ++ errs l).length ≤ cap ∧ l.count .work ≤ t)) : waited cap t o e l = t := by
  induction l generalizing t o e with
  | nil => exact absurd ⟨by simpa [outs] using ho, by simpa [errs] using he, by simp⟩ h
  | cons a l ih =>
    cases a with
    | out b =>
      rw [waited]
      by_cases hb : o.length + b.length ≤ cap
      · rw [if_pos hb]
        refine ih t (o ++ b) e (by simpa using hb) he ?_
        rintro ⟨h1, h2, h3⟩
        exact h ⟨by simpa [outs] using h1, h2, by simpa using h3⟩
      · rw [if_neg hb]
    | err b =>
      rw [waited]
      by_cases hb : e.length + b.length ≤ cap
      · rw [if_pos hb]
        refine ih t o (e ++ b) ho (by simpa using hb) ?_
        rintro ⟨h1, h2, h3⟩
        exact h ⟨h1, by simpa [errs] using h2, by simpa using h3⟩
      · rw [if_neg hb]
    | work =>
      cases t with
      | zero => rfl
      | succ t =>
        rw [waited, ih t o e ho he ?_]
        rintro ⟨h1, h2, h3⟩
        exact h ⟨h1, h2, by rw [List.count_cons_self]; omega⟩

theorem waited_le (cap : Nat) (l : List Act) (t : Nat) (o e : Bytes) : waited cap t o e l ≤ t := by
  induction l generalizing t o e with
  | nil => simp [waited]
  | cons a l ih =>
    cases a with
    | out b =>
      rw [waited]
      by_cases hb : o.length + b.length ≤ cap
      · rw [if_pos hb]; exact ih t _ _
      · rw [if_neg hb]; exact Nat.le_refl _
    | err b =>
      rw [waited]
      by_cases hb : e.length + b.length ≤ cap
      · rw [if_pos hb]; exact ih t _ _
      · rw [if_neg hb]; exact Nat.le_refl _
    | work =>
      cases t with
      | zero => exact Nat.le_refl _
      | succ t => rw [waited]; have := ih t o e; omega

theorem ofNat_toNat (x : UInt8) : (Char.ofNat x.toNat).toNat = x.toNat := by
  have h : x.toNat < 256 := x.toNat_lt
  have : Nat.isValidChar x.toNat := Or.inl (by omega)
  simp [Char.ofNat, this, Char.toNat, Char.ofNatAux]

theorem latin1_spec (b : Bytes) : Spec.Latin1 b (latin1 b) := by
  rw [Spec.Latin1, latin1, List.map_map]
  apply List.map_congr_left
  intro x _
  exact ofNat_toNat x

theorem Spec.Latin1.unique {b b' : Bytes} {s : Str} (h : Spec.Latin1 b s) (h' : Spec.Latin1 b' s) : b = b' := by
  have := h.symm.trans h'
  clear h h'
  induction b generalizing b' with
  | nil => cases b' with | nil => rfl | cons y b' => simp at this
  | cons x b ih =>
    cases b' with
    | nil => simp at this
    | cons y b' =>
      simp only [List.map_cons, List.cons.injEq] at this
      rw [UInt8.toNat_inj.1 this.1, ih this.2]

/-! ## The pool -/

/-- Commands wait only if all threads are in use; no command takes more than `T` ticks. -/
structure Sound (w T : Nat) (p : Pool) : Prop where
  full : p.queue ≠ [] → w ≤ p.running.length
  short : ∀ r ∈ p.running, r.2 ≤ T
  bounded : p.running.length ≤ w

theorem Sound.fill {w T : Nat} {d : Nat → Nat} (hd : ∀ j, d j ≤ T) {p : Pool} (h : ∀ r ∈ p.running, r.2 ≤ T)
    (hb : p.running.length ≤ w) : Sound w T (p.fill w d) := by
  refine ⟨?_, ?_, ?_⟩
  · intro hq
    simp only [Pool.fill, ne_eq, List.drop_eq_nil_iff, Nat.not_le] at hq
    simp only [Pool.fill, List.length_append, List.length_map, List.length_take]
    omega
  · intro r hr
    simp only [Pool.fill, List.mem_append, List.mem_map] at hr
    rcases hr with hr | ⟨j, _, rfl⟩
    · exact h r hr
    · exact hd j
  · simp only [Pool.fill, List.length_append, List.length_map, List.length_take]
    omega

theorem Sound.step {w T : Nat} {d : Nat → Nat} (hd : ∀ j, d j ≤ T) {p : Pool} (h : Sound w T p) (op : Op) : Sound w T (p.step w d op) := by
  cases op with
  | submit j => exact Sound.fill hd h.short h.bounded
  | tick =>
    refine Sound.fill hd ?_ (by
      rw [List.length_map]
      exact Nat.le_trans (List.length_filter_le _ _) h.bounded)
    intro r hr
    simp only [List.mem_map, List.mem_filter] at hr
    obtain ⟨r', ⟨hr', _⟩, rfl⟩ := hr
    have := h.short r' hr'
    simp only; omega

/-- The command `j` ends within `n` ticks: it has ended, it runs, or it waits behind others. -/
inductive Within (T : Nat) (p : Pool) (j : Nat) (n : Nat) : Prop
  | ended : j ∈ p.ended → Within T p j n
  | running (r : Nat) : (j, r) ∈ p.running → r + 1 ≤ n → Within T p j n
  | waiting (i k r : Nat) (l : List (Nat × Nat)) : p.queue[i]? = some j → p.running = (k, r) :: l → (i + 1) * (T + 1) + r + 1 ≤ n →
      Within T p j n

theorem Within.mono {T : Nat} {p : Pool} {j n m : Nat} (h : Within T p j n) (hm : n ≤ m) : Within T p j m := by
  cases h with
  | ended h => exact .ended h
  | running r h1 h2 => exact .running r h1 (by omega)
  | waiting i k r l h1 h2 h3 => exact .waiting i k r l h1 h2 (by omega)

theorem within_submit {w T : Nat} {d : Nat → Nat} {p : Pool} {j n : Nat} (h : Within T p j n) (hs : Sound w T p) (i : Nat) :
    Within T (p.submit w d i) j n := by
  cases h with
  | ended h => exact .ended h
  | running r h1 h2 => exact .running r (by simp only [Pool.submit, Pool.fill, List.mem_append]; exact .inl h1) h2
  | waiting x k r l h1 h2 h3 =>
    have hq : p.queue ≠ [] := by intro e; rw [e] at h1; simp at h1
    have hk : w - p.running.length = 0 := by have := hs.full hq; omega
    refine .waiting x k r (l ++ []) ?_ ?_ h3
    · simp only [Pool.submit, Pool.fill, hk, List.drop_zero]
      rw [List.getElem?_append_left (by
        rw [List.getElem?_eq_some_iff] at h1; exact h1.1)]
      exact h1
    · show p.running ++ ((p.queue ++ [i]).take (w - p.running.length)).map (fun j => (j, d j)) = _
      rw [hk, h2]; rfl

theorem within_tick {w T : Nat} {d : Nat → Nat} (hw : 1 ≤ w) (hd : ∀ j, d j ≤ T) {p : Pool} {j n : Nat} (h : Within T p j (n + 1))
    (hs : Sound w T p) : Within T (p.tick w d) j n := by
  cases h with
  | ended h => exact .ended (by simp only [Pool.tick, Pool.fill, List.mem_append]; exact .inl h)
  | running r h1 h2 =>
    cases r with
    | zero =>
      refine .ended ?_
      simp only [Pool.tick, Pool.fill, List.mem_append, List.mem_map, List.mem_filter]
      exact .inr ⟨(j, 0), ⟨h1, by simp⟩, rfl⟩
    | succ r =>
      refine .running r ?_ (by omega)
      simp only [Pool.tick, Pool.fill, List.mem_append, List.mem_map, List.mem_filter]
      exact .inl ⟨(j, r + 1), ⟨h1, by simp⟩, rfl⟩
  | waiting x k r l h1 h2 h3 =>
    have hx : x < p.queue.length := by rw [List.getElem?_eq_some_iff] at h1; exact h1.1
    have hq : p.queue ≠ [] := by intro e; rw [e] at h1; simp at h1
    have hfull := hs.full hq
    -- what is left of the running commands
    let rs := (p.running.filter (fun r => 0 < r.2)).map (fun r => (r.1, r.2 - 1))
    have hrs : (p.tick w d).running = rs ++ (p.queue.take (w - rs.length)).map (fun j => (j, d j)) := rfl
    have hqs : (p.tick w d).queue = p.queue.drop (w - rs.length) := rfl
    have hrs' : rs.length ≤ p.running.length := by simp only [rs, List.length_map]; exact List.length_filter_le _ _
    have hshort : ∀ q ∈ (p.tick w d).running, q.2 ≤ T := (hs.step hd .tick).short
    by_cases hlt : x < w - rs.length
    · -- the command is started
      refine .running (d j) ?_ ?_
      · rw [hrs]
        refine List.mem_append.2 ?_
        exact .inr (List.mem_map.2 ⟨j, List.mem_of_getElem? (i := x) (by rw [List.getElem?_take_of_lt hlt]; exact h1), rfl⟩)
      · have := hd j
        have : T + 1 ≤ (x + 1) * (T + 1) := Nat.le_mul_of_pos_left _ (by omega)
        omega
    · have hqx : (p.tick w d).queue[x - (w - rs.length)]? = some j := by
        rw [hqs, List.getElem?_drop, show w - rs.length + (x - (w - rs.length)) = x by omega]; exact h1
      by_cases hr : 0 < r
      · -- the first command runs on
        have e : rs = (k, r - 1) :: (l.filter (fun r => 0 < r.2)).map (fun r => (r.1, r.2 - 1)) := by
          simp only [rs, h2, List.filter_cons]
          rw [if_pos (by simpa using hr)]; rfl
        refine .waiting (x - (w - rs.length)) k (r - 1) _ hqx (by rw [hrs]; conv => lhs; lhs; rw [e]
                                                                  rfl) ?_
        have : (x - (w - rs.length) + 1) * (T + 1) ≤ (x + 1) * (T + 1) := Nat.mul_le_mul_right _ (by omega)
        omega
      · -- the first command has ended, and the queue moves on
        have hlen : rs.length < p.running.length := by
          simp only [rs, List.length_map, h2, List.filter_cons]
          rw [if_neg (by simpa using hr)]
          have := List.length_filter_le (fun r : Nat × Nat => decide (0 < r.2)) l
          simp only [List.length_cons]; omega
        have hb := hs.bounded
        have hst := hs.step hd .tick
        have hne : (p.tick w d).queue ≠ [] := by intro e; rw [e] at hqx; simp at hqx
        have hlen' := hst.full hne
        cases hrun : (p.tick w d).running with
        | nil =>
          have : (p.step w d .tick).running = [] := hrun
          rw [this] at hlen'
          simp only [List.length_nil] at hlen'; omega
        | cons q l' =>
          obtain ⟨k', r'⟩ := q
          have hr' : r' ≤ T := hshort (k', r') (by rw [hrun]; simp)
          refine .waiting _ k' r' l' hqx hrun ?_
          have : (x - (w - rs.length) + 1) * (T + 1) ≤ x * (T + 1) := Nat.mul_le_mul_right _ (by omega)
          have : (x + 1) * (T + 1) = x * (T + 1) + (T + 1) := Nat.succ_mul _ _
          omega

theorem within_zero {T : Nat} {p : Pool} {j : Nat} (h : Within T p j 0) : j ∈ p.ended := by
  cases h with
  | ended h => exact h
  | running r h1 h2 => omega
  | waiting x k r l h1 h2 h3 => omega

theorem Sound.steps {w T : Nat} {d : Nat → Nat} (hd : ∀ j, d j ≤ T) {p : Pool} (h : Sound w T p) (ops : List Op) :
    Sound w T (p.steps w d ops) := by
  induction ops generalizing p with
  | nil => exact h
  | cons op ops ih => exact ih (h.step hd op)

theorem within_steps {w T : Nat} {d : Nat → Nat} (hw : 1 ≤ w) (hd : ∀ j, d j ≤ T) {p : Pool} {j n : Nat} (ops : List Op)
    (h : Within T p j n) (hs : Sound w T p) (hn : n ≤ ops.count .tick) : j ∈ (p.steps w d ops).ended := by
  induction ops generalizing p n with
  | nil =>
    have : n = 0 := by simpa using hn
    subst this
    exact within_zero h
  | cons op ops ih =>
    cases op with
    | submit i =>
      exact ih (within_submit h hs i) (hs.step hd (.submit i)) (by simpa using hn)
    | tick =>
      rw [List.count_cons_self] at hn
      cases n with
      | zero => exact ih (within_tick hw hd (h.mono (Nat.le_succ 0)) hs) (hs.step hd .tick) (by omega)
      | succ n => exact ih (within_tick hw hd h hs) (hs.step hd .tick) (by omega)

/-- A command that has just been handed in ends within a time that depends on the number of those before it. -/
theorem within_submitted {w T : Nat} {d : Nat → Nat} (hw : 1 ≤ w) (hd : ∀ j, d j ≤ T) {p : Pool} (hs : Sound w T p) (j : Nat) :
    Within T (p.submit w d j) j ((p.queue.length + 2) * (T + 1)) := by
  have hst : Sound w T (p.submit w d j) := hs.step hd (.submit j)
  have hm : (p.queue.length + 2) * (T + 1) = p.queue.length * (T + 1) + (T + 1) + (T + 1) := by
    rw [Nat.add_mul]; omega
  have hrs : (p.submit w d j).running = p.running ++ ((p.queue ++ [j]).take (w - p.running.length)).map (fun j => (j, d j)) := rfl
  have hqs : (p.submit w d j).queue = (p.queue ++ [j]).drop (w - p.running.length) := rfl
  have hat : (p.queue ++ [j])[p.queue.length]? = some j := by simp
  by_cases hlt : p.queue.length < w - p.running.length
  · refine .running (d j) ?_ ?_
    · rw [hrs]
      refine List.mem_append.2 (.inr (List.mem_map.2 ⟨j, List.mem_of_getElem? (i := p.queue.length) ?_, rfl⟩))
      rw [List.getElem?_take_of_lt hlt]; exact hat
    · have := hd j; omega
  · have hqx : (p.submit w d j).queue[p.queue.length - (w - p.running.length)]? = some j := by
      rw [hqs, List.getElem?_drop, show w - p.running.length + (p.queue.length - (w - p.running.length)) = p.queue.length by omega]
      exact hat
    have hne : (p.submit w d j).queue ≠ [] := by intro e; rw [e] at hqx; simp at hqx
    have hlen := hst.full hne
    cases hrun : (p.submit w d j).running with
    | nil => rw [hrun] at hlen; simp only [List.length_nil] at hlen; omega
    | cons q l =>
      obtain ⟨k, r⟩ := q
      have hr : r ≤ T := hst.short (k, r) (by rw [hrun]; simp)
      refine .waiting _ k r l hqx hrun ?_
      have : (p.queue.length - (w - p.running.length) + 1) * (T + 1) ≤ (p.queue.length + 1) * (T + 1) := Nat.mul_le_mul_right _ (by omega)
      have : (p.queue.length + 1) * (T + 1) = p.queue.length * (T + 1) + (T + 1) := Nat.succ_mul _ _
      omega

end Verif.Executor
