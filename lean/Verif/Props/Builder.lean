import Verif.Lemmas.Builder

/-!
# C18, C19, C23, C50: builders
-/

namespace Verif.Builder

open Verif

variable {W : Type}

/-! ### C18 -/

/-- C18. In any history of a sequential builder (of any number of calls, with any changes of the world in
between), a step is built only after each earlier step last answered 'done', and right after the step itself
answered 'ready'. -/
theorem C18_in_order (S : Subs W) (clear : Bool) (L : List Nat) (hn : L.Nodup) (w : W) (cs : List (Call W))
    (t1 t2 : List Ev) (k : Nat) (h : (history S false clear ⟨L, w⟩ cs).2 = t1 ++ .built k :: t2) :
    (∀ j, Before L j k → lastPoll t1 j = some (.ok .done)) ∧ t1.getLast? = some (.polled k (.ok .ready)) := by
  have := history_inv S false clear L hn cs ⟨L, w⟩ [] (inv_start false L)
  rw [List.nil_append] at this
  obtain ⟨_, h2, h3⟩ := this.started t1 k t2 h
  exact ⟨h3 rfl, h2⟩

theorem pollAll_ok (S : Subs W) (is : List Nat) (s : State W) (sts : List Status) (h : (pollAll S is s).1 = .ok sts) :
    (pollAll S is s).2.2 = List.zipWith (fun i st => Ev.polled i (.ok st)) is sts ∧ sts.length = is.length := by
  induction is generalizing s sts with
  | nil =>
    have : sts = [] := by simpa [pollAll, pure_run] using h.symm
    subst this; simp [pollAll, pure_run]
  | cons i is ih =>
    unfold pollAll at h ⊢
    cases hr : (S.status i s.w).1 with
    | error e =>
      rw [bind_error _ _ s { s with w := (S.status i s.w).2 } e [.polled i (.error e)] (by rw [poll_eq, hr])] at h
      simp at h
    | ok st =>
      rw [bind_ok _ _ s { s with w := (S.status i s.w).2 } st [.polled i (.ok st)] (by rw [poll_eq, hr])] at h ⊢
      cases hq : pollAll S is { s with w := (S.status i s.w).2 } with
      | mk r rest =>
        obtain ⟨s', t'⟩ := rest
        cases r with
        | error e => rw [bind_error _ _ _ _ _ _ hq] at h; simp at h
        | ok sts' =>
          rw [bind_ok _ _ _ _ _ _ hq] at h ⊢
          simp only [pure_run, Except.ok.injEq] at h
          subst h
          have := ih { s with w := (S.status i s.w).2 } sts' (by rw [hq])
          rw [hq] at this
          simp only [pure_run, List.append_nil]
          have h1 : t' = _ := this.1
          exact ⟨by simp [h1], by simp [this.2]⟩

theorem combine_done (sts : List Status) : combine sts = .done ↔ ∀ st ∈ sts, st = .done := by
  unfold combine
  split
  · rename_i h
    rw [List.filter_eq_nil_iff] at h
    simp only [decide_eq_true_eq, ne_eq, Decidable.not_not] at h
    simpa using h
  · rename_i st l h
    have hm : st ∈ sts.filter (· ≠ .done) := by rw [h]; simp
    rw [List.mem_filter] at hm
    have hne : st ≠ .done := by simpa using hm.2
    constructor
    · intro he; exact absurd he hne
    · intro ha; exact absurd (ha st hm.1) hne

theorem compStatus_ok (S : Subs W) (s : State W) (r : Status) (h : (compStatus S s).1 = .ok r) :
    ∃ sts, sts.length = s.subs.length ∧ r = combine sts ∧
      (compStatus S s).2.2 = List.zipWith (fun i st => Ev.polled i (.ok st)) s.subs sts := by
  unfold compStatus at h ⊢
  rw [bind_ok _ _ s s s.subs [] rfl] at h ⊢
  cases hq : pollAll S s.subs s with
  | mk x rest =>
    obtain ⟨s', t'⟩ := rest
    cases x with
    | error e => rw [bind_error _ _ _ _ _ _ hq] at h; simp at h
    | ok sts =>
      rw [bind_ok _ _ _ _ _ _ hq] at h ⊢
      simp only [pure_run, Except.ok.injEq] at h
      have := pollAll_ok S s.subs s sts (by rw [hq])
      rw [hq] at this
      have h1 : t' = _ := this.1
      exact ⟨sts, this.2, h.symm, by simp [pure_run, h1]⟩

theorem lastPoll_zip (is : List Nat) (sts : List Status) (hl : sts.length = is.length) (hd : ∀ st ∈ sts, st = .done) (j : Nat)
    (hj : j ∈ is) : lastPoll (List.zipWith (fun i st => Ev.polled i (.ok st)) is sts) j = some (.ok .done) := by
  induction is generalizing sts with
  | nil => simp at hj
  | cons i is ih =>
    cases sts with
    | nil => simp at hl
    | cons st sts =>
      have h0 := hd st (by simp)
      subst h0
      simp only [List.zipWith_cons_cons, lastPoll]
      by_cases hji : j ∈ is
      · rw [ih sts (by simpa using hl) (fun x hx => hd x (by simp [hx])) hji]; rfl
      · have : i = j := by
          rcases List.mem_cons.1 hj with h | h
          · exact h.symm
          · exact absurd h hji
        subst this
        have hnone : ∀ (is : List Nat) (sts : List Status), i ∉ is →
            lastPoll (List.zipWith (fun i st => Ev.polled i (.ok st)) is sts) i = none := by
          intro is
          induction is with
          | nil => intro sts _; rfl
          | cons a is ih =>
            intro sts hn
            cases sts with
            | nil => rfl
            | cons b sts =>
              simp only [List.zipWith_cons_cons, lastPoll, ih sts (by intro h; exact hn (by simp [h]))]
              have : a ≠ i := by rintro rfl; simp at hn
              simp [this]
        rw [hnone is sts hji]; simp

/-- C18, C19. A composite builder reports 'done' only if every one of its sub-builders last answered 'done', also
those it has dropped in the meantime. -/
theorem C18_done_means_all_done (S : Subs W) (par clear : Bool) (L : List Nat) (hn : L.Nodup) (w : W) (cs : List (Call W))
    (h : (compStatus S (history S par clear ⟨L, w⟩ cs).1).1 = .ok .done) :
    ∀ j ∈ L, lastPoll ((history S par clear ⟨L, w⟩ cs).2 ++
      (compStatus S (history S par clear ⟨L, w⟩ cs).1).2.2) j = some (.ok .done) := by
  have hi := history_inv S par clear L hn cs ⟨L, w⟩ [] (inv_start par L)
  rw [List.nil_append] at hi
  generalize history S par clear ⟨L, w⟩ cs = st at *
  obtain ⟨sts, h1, h2, h3⟩ := compStatus_ok S st.1 .done h
  intro j hj
  by_cases hjs : j ∈ st.1.subs
  · rw [lastPoll_append, h3, lastPoll_zip st.1.subs sts h1 ((combine_done sts).1 h2.symm) j hjs]; rfl
  · exact (compStatus_inv S par L st.1 st.2 hi).2.gone j hj hjs

/-- A sequential builder with two steps that both run, in order. -/
example : (history ending false true ⟨[0, 1], fun _ => .waiting 0⟩ [.build, .build, .build]).2.filterMap
    (fun | .built i => some i | _ => none) = [0, 1] := by decide

/-! ### C19 -/

/-- C19. The status is 'done' if all sub-builders are done, and that of the first one that is not done else. -/
theorem C19_status (S : Subs W) (s : State W) (r : Status) (h : (compStatus S s).1 = .ok r) :
    ∃ sts, sts.length = s.subs.length ∧
      (compStatus S s).2.2 = List.zipWith (fun i st => Ev.polled i (.ok st)) s.subs sts ∧
      ((r = .done ∧ ∀ st ∈ sts, st = .done) ∨
        (r ≠ .done ∧ ∃ a b, sts = a ++ r :: b ∧ ∀ st ∈ a, st = .done)) := by
  obtain ⟨sts, h1, h2, h3⟩ := compStatus_ok S s r h
  refine ⟨sts, h1, h3, ?_⟩
  subst h2
  by_cases hd : combine sts = .done
  · exact Or.inl ⟨hd, (combine_done sts).1 hd⟩
  · refine Or.inr ⟨hd, ?_⟩
    clear h h1 h3
    induction sts with
    | nil => exact absurd rfl hd
    | cons st sts ih =>
      by_cases hst : st = .done
      · subst hst
        have hc : combine (.done :: sts) = combine sts := by simp [combine]
        rw [hc] at hd ⊢
        obtain ⟨a, b, h1, h2⟩ := ih hd
        refine ⟨.done :: a, b, by rw [List.cons_append, ← h1], ?_⟩
        intro x hx
        rcases List.mem_cons.1 hx with h | h
        · exact h
        · exact h2 x h
      · exact ⟨[], sts, by simp [combine, hst], by simp⟩

/-- C19. A round of a parallel builder in which no sub-builder is missing files, is cancelled or raises asks every
sub-builder once, in order, and builds exactly those that are ready. Partial: see `C19_blocked`. -/
theorem C19_all_started_partial (S : Subs W) (is : List Nat) (s : State W) (hok : ((runOnce S true is) s).1 = .ok ())
    (hall : ∀ i r, Ev.polled i r ∈ (runOnce S true is s).2.2 → r = .ok .done ∨ r = .ok .building ∨ r = .ok .ready) :
    ∃ sts : List Status, sts.length = is.length ∧
      (runOnce S true is s).2.2 = (is.zip sts).flatMap fun (i, st) =>
        .polled i (.ok st) :: if st = .ready then [.built i] else [] := by
  induction is generalizing s with
  | nil => exact ⟨[], rfl, by simp [runOnce, pure_run]⟩
  | cons i is ih =>
    unfold runOnce at hok hall ⊢
    cases hr : (S.status i s.w).1 with
    | error e =>
      rw [bind_error _ _ s { s with w := (S.status i s.w).2 } e [.polled i (.error e)] (by rw [poll_eq, hr])] at hok
      simp at hok
    | ok st =>
      rw [bind_ok _ _ s { s with w := (S.status i s.w).2 } st [.polled i (.ok st)] (by rw [poll_eq, hr])] at hok hall ⊢
      have h0 := hall i (.ok st) (by simp)
      rcases h0 with h0 | h0 | h0
      · simp only [Except.ok.injEq] at h0
        subst h0
        dsimp only at hok hall ⊢
        obtain ⟨sts, h1, h2⟩ := ih _ hok fun j r hj => hall j r (by simp [hj])
        exact ⟨.done :: sts, by simp [h1], by simp [h2]⟩
      · simp only [Except.ok.injEq] at h0
        subst h0
        simp only [if_true] at hok hall ⊢
        obtain ⟨sts, h1, h2⟩ := ih _ hok fun j r hj => hall j r (by simp [hj])
        exact ⟨.building :: sts, by simp [h1], by simp [h2]⟩
      · simp only [Except.ok.injEq] at h0
        subst h0
        generalize hs1 : ({ s with w := (S.status i s.w).2 } : State W) = s1 at *
        dsimp only at hok hall ⊢
        cases hq : (S.build i s1.w).1 with
        | error e =>
          rw [bind_error _ _ s1 { s1 with w := (S.build i s1.w).2 } e [.built i] (by rw [buildSub_eq, hq])] at hok
          simp at hok
        | ok u =>
          rw [bind_ok _ _ s1 { s1 with w := (S.build i s1.w).2 } u [.built i] (by rw [buildSub_eq, hq])] at hok hall ⊢
          simp only [if_true] at hok hall ⊢
          obtain ⟨sts, h1, h2⟩ := ih _ hok fun j r hj => hall j r (by simp [hj])
          exact ⟨.ready :: sts, by simp [h1], by simp [h2]⟩

/-- C19. A composite builder drops a sub-builder only after that answered 'done'; none is added. -/
theorem C19_never_dropped (S : Subs W) (par clear : Bool) (L : List Nat) (hn : L.Nodup) (w : W) (cs : List (Call W)) :
    List.Sublist (history S par clear ⟨L, w⟩ cs).1.subs L ∧
    ∀ j ∈ L, j ∉ (history S par clear ⟨L, w⟩ cs).1.subs →
      lastPoll (history S par clear ⟨L, w⟩ cs).2 j = some (.ok .done) := by
  have := history_inv S par clear L hn cs ⟨L, w⟩ [] (inv_start par L)
  rw [List.nil_append] at this
  exact ⟨this.left, this.gone⟩

/-- C19. In any history a sub-builder is built only right after it answered 'ready'. -/
theorem C19_only_ready (S : Subs W) (par clear : Bool) (L : List Nat) (hn : L.Nodup) (w : W) (cs : List (Call W))
    (t1 t2 : List Ev) (k : Nat) (h : (history S par clear ⟨L, w⟩ cs).2 = t1 ++ .built k :: t2) :
    k ∈ L ∧ t1.getLast? = some (.polled k (.ok .ready)) := by
  have := history_inv S par clear L hn cs ⟨L, w⟩ [] (inv_start par L)
  rw [List.nil_append] at this
  obtain ⟨h1, h2, _⟩ := this.started t1 k t2 h
  exact ⟨h1, h2⟩

theorem clearDone_no_build (S : Subs W) (is : List Nat) (s : State W) (k : Nat) : Ev.built k ∉ (clearDone S is s).2.2 := by
  induction is generalizing s with
  | nil => simp [clearDone, pure_run]
  | cons i is ih =>
    unfold clearDone
    cases hr : (S.status i s.w).1 with
    | error e =>
      rw [bind_error _ _ s { s with w := (S.status i s.w).2 } e [.polled i (.error e)] (by rw [poll_eq, hr])]
      simp
    | ok st =>
      rw [bind_ok _ _ s { s with w := (S.status i s.w).2 } st [.polled i (.ok st)] (by rw [poll_eq, hr])]
      dsimp only
      by_cases hst : st = .done
      · rw [if_pos hst, bind_ok _ _ _ ({ subs := s.subs.erase i, w := (S.status i s.w).2 } : State W) () [] rfl]
        simpa using ih _
      · rw [if_neg hst]
        simpa using ih _

theorem pollAll_no_build (S : Subs W) (is : List Nat) (s : State W) (k : Nat) : Ev.built k ∉ (pollAll S is s).2.2 := by
  induction is generalizing s with
  | nil => simp [pollAll, pure_run]
  | cons i is ih =>
    unfold pollAll
    cases hr : (S.status i s.w).1 with
    | error e =>
      rw [bind_error _ _ s { s with w := (S.status i s.w).2 } e [.polled i (.error e)] (by rw [poll_eq, hr])]
      simp
    | ok st =>
      rw [bind_ok _ _ s { s with w := (S.status i s.w).2 } st [.polled i (.ok st)] (by rw [poll_eq, hr])]
      have h2 := ih { s with w := (S.status i s.w).2 }
      cases hq : pollAll S is { s with w := (S.status i s.w).2 } with
      | mk r rest =>
        obtain ⟨s', t'⟩ := rest
        rw [hq] at h2
        cases r with
        | error e => rw [bind_error _ _ _ _ _ _ hq]; simpa using h2
        | ok sts => rw [bind_ok _ _ _ _ _ _ hq]; simpa [pure_run] using h2

theorem compStatus_no_build (S : Subs W) (s : State W) (k : Nat) : Ev.built k ∉ (compStatus S s).2.2 := by
  have h2 := pollAll_no_build S s.subs s k
  unfold compStatus
  rw [bind_ok _ _ s s s.subs [] rfl]
  cases hq : pollAll S s.subs s with
  | mk r rest =>
    obtain ⟨s', t'⟩ := rest
    rw [hq] at h2
    cases r with
    | error e => rw [bind_error _ _ _ _ _ _ hq]; simpa using h2
    | ok sts => rw [bind_ok _ _ _ _ _ _ hq]; simpa [pure_run] using h2

theorem no_build_bind {α β : Type} (x : M W α) (f : α → M W β) (s : State W) (k : Nat) (hx : Ev.built k ∉ (x s).2.2)
    (hf : ∀ a s, Ev.built k ∉ (f a s).2.2) : Ev.built k ∉ ((x >>= f) s).2.2 := by
  cases hq : x s with
  | mk r rest =>
    obtain ⟨s', t'⟩ := rest
    rw [hq] at hx
    cases r with
    | error e => rw [bind_error _ _ _ _ _ _ hq]; exact hx
    | ok a =>
      rw [bind_ok _ _ _ _ _ _ hq]
      intro h
      rcases List.mem_append.1 h with h | h
      · exact hx h
      · exact hf a s' h

theorem finish_no_build (S : Subs W) (clear : Bool) (s : State W) (k : Nat) : Ev.built k ∉ (finish S clear s).2.2 := by
  unfold finish
  refine no_build_bind _ _ _ _ (compStatus_no_build S s k) fun st s => ?_
  have h2 : ∀ s, Ev.built k ∉ ((do
      if clear = true then do
        let subs ← getSubs
        clearDone S subs
      pure st : M W Status) s).2.2 := by
    intro s
    dsimp only
    split
    · refine no_build_bind _ _ _ _ (by simp [getSubs]) fun subs s => ?_
      exact no_build_bind _ _ _ _ (clearDone_no_build S subs s k) fun _ s => by simp [pure_run]
    · simp [pure_run]
  dsimp only at h2 ⊢
  split
  · exact no_build_bind _ _ _ _ (by simp [record]) fun _ s => h2 s
  · exact h2 s

/-- Finding: "starts every sub-build that is not done" is false. If the first sub-builder that is not done misses a file
or is cancelled, nothing is started at all, although the others may be ready. -/
theorem C19_blocked (S : Subs W) (par clear : Bool) (s : State W) (r : Status) (h : (compStatus S s).1 = .ok r)
    (hr : r ≠ .building ∧ r ≠ .ready) (k : Nat) : Ev.built k ∉ (build S par clear s).2.2 := by
  unfold build
  cases hq : compStatus S s with
  | mk x rest =>
    obtain ⟨s', t'⟩ := rest
    rw [hq] at h
    simp only at h
    subst h
    have hc := compStatus_no_build S s k
    rw [hq] at hc
    rw [bind_ok _ _ _ _ _ _ hq]
    dsimp only
    rw [if_neg (by rintro (h | h) <;> simp_all)]
    intro hm
    rcases List.mem_append.1 hm with h | h
    · exact hc h
    · exact finish_no_build S clear s' k h

/-- A parallel builder whose first sub-builder misses a file and whose second is ready builds nothing. -/
example : ((build (W := Unit) ⟨fun i w => (.ok (if i = 0 then .missingParameters else .ready), w), fun _ w => (.ok (), w),
    fun w => (.ok (), w)⟩ true true ⟨[0, 1], ()⟩).2.2.filterMap (fun | .built i => some i | _ => none)) = [] := by decide

/-! #### Builds end -/

def weight : Phase → Nat
  | .waiting n => n + 2
  | .running n => n + 1
  | .done => 0

theorem weight_polled (p : Phase) : weight p.polled ≤ weight p := by
  cases p with
  | waiting n => simp [Phase.polled]
  | running n => cases n <;> simp [Phase.polled, weight]
  | done => simp [Phase.polled]

theorem weight_built (p : Phase) : weight p.built ≤ weight p := by
  cases p <;> simp [Phase.built, weight]

/-- What polls and builds keep. -/
structure Le (w w' : Nat → Phase) : Prop where
  weight : ∀ j, weight (w' j) ≤ weight (w j)
  done : ∀ j, w j = .done → w' j = .done

theorem Le.refl (w : Nat → Phase) : Le w w := ⟨fun _ => Nat.le_refl _, fun _ h => h⟩
theorem Le.trans {w w' w'' : Nat → Phase} (h : Le w w') (h' : Le w' w'') : Le w w'' :=
  ⟨fun j => Nat.le_trans (h'.weight j) (h.weight j), fun j hj => h'.done j (h.done j hj)⟩

theorem le_polled (w : Nat → Phase) (i : Nat) : Le w (upd w i (w i).polled) where
  weight j := by
    unfold upd
    split
    · rename_i h; subst h; exact weight_polled _
    · exact Nat.le_refl _
  done j hj := by
    unfold upd
    split
    · rename_i h; subst h; rw [hj]; rfl
    · exact hj

theorem le_built (w : Nat → Phase) (i : Nat) : Le w (upd w i (w i).built) where
  weight j := by
    unfold upd
    split
    · rename_i h; subst h; exact weight_built _
    · exact Nat.le_refl _
  done j hj := by
    unfold upd
    split
    · rename_i h; subst h; rw [hj]; rfl
    · exact hj

theorem status_done (p : Phase) (h : p.status = .done) : p.polled = .done := by
  cases p with
  | waiting n => simp [Phase.status] at h
  | running n => cases n <;> simp_all [Phase.status, Phase.polled]
  | done => rfl

theorem pollAll_ending (is : List Nat) (s : State (Nat → Phase)) :
    ∃ sts s' t, pollAll ending is s = (.ok sts, s', t) ∧ s'.subs = s.subs ∧ Le s.w s'.w ∧
      (∀ j n, s.w j = .waiting n → s'.w j = .waiting n) ∧
      ((combine sts = .done ∧ ∀ j ∈ is, s'.w j = .done) ∨
       (combine sts = .building ∧ ∃ i ∈ is, weight (s'.w i) < weight (s.w i)) ∨
       (combine sts = .ready ∧ ∃ a i b n, is = a ++ i :: b ∧ (∀ j ∈ a, s'.w j = .done) ∧ s'.w i = .waiting n)) := by
  induction is generalizing s with
  | nil => exact ⟨[], s, [], rfl, rfl, Le.refl _, fun _ _ h => h, Or.inl ⟨rfl, by simp⟩⟩
  | cons i is ih =>
    obtain ⟨sts, s', t, h1, h2, h3, h4, h5⟩ := ih { s with w := upd s.w i (s.w i).polled }
    have hrun : pollAll ending (i :: is) s = (.ok ((s.w i).status :: sts), s', [.polled i (.ok (s.w i).status)] ++ t) := by
      unfold pollAll
      rw [bind_ok _ _ s { s with w := upd s.w i (s.w i).polled } (s.w i).status [.polled i (.ok (s.w i).status)] rfl,
        bind_ok _ _ _ _ _ _ h1]
      simp [pure_run]
    have hle : Le s.w s'.w := (le_polled s.w i).trans h3
    have hwait : ∀ j n, s.w j = .waiting n → s'.w j = .waiting n := by
      intro j n hj
      apply h4
      show upd s.w i (s.w i).polled j = _
      unfold upd
      split
      · rename_i h; subst h; rw [hj]; rfl
      · exact hj
    refine ⟨_, s', _, hrun, h2, hle, hwait, ?_⟩
    have hupd : upd s.w i (s.w i).polled i = (s.w i).polled := by simp [upd]
    cases hst : (s.w i).status with
    | done =>
      have hi : s'.w i = .done := h3.done i (by show upd s.w i (s.w i).polled i = _; rw [hupd, status_done _ hst])
      have hc : combine (.done :: sts) = combine sts := by simp [combine]
      rw [hc]
      rcases h5 with ⟨a, b⟩ | ⟨a, j, hj, b⟩ | ⟨a, x, j, y, n, rfl, b, c⟩
      · refine Or.inl ⟨a, ?_⟩
        intro j hj
        rcases List.mem_cons.1 hj with rfl | hj
        · exact hi
        · exact b j hj
      · exact Or.inr (Or.inl ⟨a, j, by simp [hj], Nat.lt_of_lt_of_le b ((le_polled s.w i).weight j)⟩)
      · refine Or.inr (Or.inr ⟨a, i :: x, j, y, n, rfl, ?_, c⟩)
        intro z hz
        rcases List.mem_cons.1 hz with rfl | hz
        · exact hi
        · exact b z hz
    | building =>
      refine Or.inr (Or.inl ⟨by simp [combine], i, by simp, ?_⟩)
      refine Nat.lt_of_le_of_lt (h3.weight i) ?_
      show weight (upd s.w i (s.w i).polled i) < _
      rw [hupd]
      cases hp : s.w i with
      | waiting n => rw [hp] at hst; simp [Phase.status] at hst
      | running n =>
        rw [hp] at hst
        cases n with
        | zero => simp [Phase.status] at hst
        | succ n => simp [Phase.polled, weight]
      | done => rw [hp] at hst; simp [Phase.status] at hst
    | ready =>
      have : ∃ n, s.w i = .waiting n := by
        cases hp : s.w i with
        | waiting n => exact ⟨n, rfl⟩
        | running n => rw [hp] at hst; cases n <;> simp [Phase.status] at hst
        | done => rw [hp] at hst; simp [Phase.status] at hst
      obtain ⟨n, hn⟩ := this
      exact Or.inr (Or.inr ⟨by simp [combine], [], i, is, n, rfl, by simp, hwait i n hn⟩)
    | missingParameters =>
      exfalso
      cases hp : s.w i with
      | waiting n => rw [hp] at hst; simp [Phase.status] at hst
      | running n => rw [hp] at hst; cases n <;> simp [Phase.status] at hst
      | done => rw [hp] at hst; simp [Phase.status] at hst
    | missingOutfile =>
      exfalso
      cases hp : s.w i with
      | waiting n => rw [hp] at hst; simp [Phase.status] at hst
      | running n => rw [hp] at hst; cases n <;> simp [Phase.status] at hst
      | done => rw [hp] at hst; simp [Phase.status] at hst
    | cancelled =>
      exfalso
      cases hp : s.w i with
      | waiting n => rw [hp] at hst; simp [Phase.status] at hst
      | running n => rw [hp] at hst; cases n <;> simp [Phase.status] at hst
      | done => rw [hp] at hst; simp [Phase.status] at hst

theorem compStatus_ending (s : State (Nat → Phase)) :
    ∃ r s' t, compStatus ending s = (.ok r, s', t) ∧ s'.subs = s.subs ∧ Le s.w s'.w ∧
      ((r = .done ∧ ∀ j ∈ s.subs, s'.w j = .done) ∨
       (r = .building ∧ ∃ i ∈ s.subs, weight (s'.w i) < weight (s.w i)) ∨
       (r = .ready ∧ ∃ a i b n, s.subs = a ++ i :: b ∧ (∀ j ∈ a, s'.w j = .done) ∧ s'.w i = .waiting n)) := by
  obtain ⟨sts, s', t, h1, h2, h3, _, h5⟩ := pollAll_ending s.subs s
  refine ⟨combine sts, s', t, ?_, h2, h3, h5⟩
  unfold compStatus
  rw [bind_ok _ _ s s s.subs [] rfl, bind_ok _ _ _ _ _ _ h1]
  simp [pure_run]

theorem runOnce_ending (par : Bool) (is : List Nat) (s : State (Nat → Phase)) :
    ∃ s' t, runOnce ending par is s = (.ok (), s', t) ∧ s'.subs = s.subs ∧ Le s.w s'.w ∧
      (∀ a i b n, is = a ++ i :: b → (∀ j ∈ a, s.w j = .done) → s.w i = .waiting n → weight (s'.w i) < weight (s.w i)) := by
  induction is generalizing s with
  | nil => exact ⟨s, [], rfl, rfl, Le.refl _, by intro a i b n h; simp at h⟩
  | cons i is ih =>
    have hupd : upd s.w i (s.w i).polled i = (s.w i).polled := by simp [upd]
    unfold runOnce
    rw [bind_ok _ _ s { s with w := upd s.w i (s.w i).polled } (s.w i).status [.polled i (.ok (s.w i).status)] rfl]
    generalize hs1 : ({ s with w := upd s.w i (s.w i).polled } : State (Nat → Phase)) = s1
    have hw1 : s1.w = upd s.w i (s.w i).polled := by rw [← hs1]
    have hsub1 : s1.subs = s.subs := by rw [← hs1]
    have hle1 : Le s.w s1.w := by rw [hw1]; exact le_polled s.w i
    cases hst : (s.w i).status with
    | done =>
      obtain ⟨s', t, h1, h2, h3, h4⟩ := ih s1
      dsimp only
      rw [h1]
      refine ⟨s', _, rfl, h2.trans hsub1, hle1.trans h3, ?_⟩
      intro a j b n he ha hj
      cases a with
      | nil =>
        simp only [List.nil_append, List.cons.injEq] at he
        rw [← he.1] at hj
        rw [hj] at hst; simp [Phase.status] at hst
      | cons x a =>
        simp only [List.cons_append, List.cons.injEq] at he
        have hj1 : s1.w j = .waiting n := by
          rw [hw1]; unfold upd
          split
          · rename_i h; subst h; rw [hj]; rfl
          · exact hj
        have := h4 a j b n he.2 (fun z hz => hle1.done z (ha z (by simp [hz]))) hj1
        exact Nat.lt_of_lt_of_le this (hle1.weight j)
    | building =>
      dsimp only
      have hhead : ∀ a j b n, i :: is = a ++ j :: b → (∀ z ∈ a, s.w z = .done) → s.w j = .waiting n → False := by
        intro a j b n he ha hj
        cases a with
        | nil =>
          simp only [List.nil_append, List.cons.injEq] at he
          rw [← he.1] at hj; rw [hj] at hst; simp [Phase.status] at hst
        | cons x a =>
          simp only [List.cons_append, List.cons.injEq] at he
          have := ha x (by simp)
          rw [← he.1] at this; rw [this] at hst; simp [Phase.status] at hst
      cases par with
      | false =>
        exact ⟨s1, _, rfl, hsub1, hle1, fun a j b n he ha hj => (hhead a j b n he ha hj).elim⟩
      | true =>
        obtain ⟨s', t, h1, h2, h3, h4⟩ := ih s1
        simp only [if_true]
        rw [h1]
        exact ⟨s', _, rfl, h2.trans hsub1, hle1.trans h3, fun a j b n he ha hj => (hhead a j b n he ha hj).elim⟩
    | ready =>
      dsimp only
      have hwi : ∃ n, s.w i = .waiting n := by
        cases hp : s.w i with
        | waiting n => exact ⟨n, rfl⟩
        | running n => rw [hp] at hst; cases n <;> simp [Phase.status] at hst
        | done => rw [hp] at hst; simp [Phase.status] at hst
      obtain ⟨m, hm⟩ := hwi
      have hm1 : s1.w i = .waiting m := by rw [hw1, hupd, hm]; rfl
      generalize hs2 : ({ s1 with w := upd s1.w i (s1.w i).built } : State (Nat → Phase)) = s2
      have hb : buildSub ending i s1 = (.ok (), s2, [.built i]) := by rw [← hs2]; rfl
      have hw2 : s2.w = upd s1.w i (s1.w i).built := by rw [← hs2]
      have hsub2 : s2.subs = s.subs := by rw [← hs2]; exact hsub1
      have hle2 : Le s.w s2.w := by rw [hw2]; exact hle1.trans (le_built s1.w i)
      have hlt : weight (s2.w i) < weight (s.w i) := by
        rw [hw2]; unfold upd; rw [if_pos rfl, hm1, hm]; simp [Phase.built, weight]
      have hhead : ∀ a j b n, i :: is = a ++ j :: b → (∀ z ∈ a, s.w z = .done) → s.w j = .waiting n → j = i := by
        intro a j b n he ha hj
        cases a with
        | nil =>
          simp only [List.nil_append, List.cons.injEq] at he
          exact he.1.symm
        | cons x a =>
          simp only [List.cons_append, List.cons.injEq] at he
          have := ha x (by simp)
          rw [← he.1] at this; rw [this] at hst; simp [Phase.status] at hst
      rw [bind_ok _ _ _ _ _ _ hb]
      cases par with
      | false =>
        refine ⟨s2, _, rfl, hsub2, hle2, ?_⟩
        intro a j b n he ha hj
        rw [hhead a j b n he ha hj]; exact hlt
      | true =>
        obtain ⟨s', t, h1, h2, h3, h4⟩ := ih s2
        simp only [if_true]
        rw [h1]
        refine ⟨s', _, rfl, h2.trans hsub2, hle2.trans h3, ?_⟩
        intro a j b n he ha hj
        rw [hhead a j b n he ha hj]
        exact Nat.lt_of_le_of_lt (h3.weight i) hlt
    | missingParameters =>
      exfalso
      cases hp : s.w i with
      | waiting n => rw [hp] at hst; simp [Phase.status] at hst
      | running n => rw [hp] at hst; cases n <;> simp [Phase.status] at hst
      | done => rw [hp] at hst; simp [Phase.status] at hst
    | missingOutfile =>
      exfalso
      cases hp : s.w i with
      | waiting n => rw [hp] at hst; simp [Phase.status] at hst
      | running n => rw [hp] at hst; cases n <;> simp [Phase.status] at hst
      | done => rw [hp] at hst; simp [Phase.status] at hst
    | cancelled =>
      exfalso
      cases hp : s.w i with
      | waiting n => rw [hp] at hst; simp [Phase.status] at hst
      | running n => rw [hp] at hst; cases n <;> simp [Phase.status] at hst
      | done => rw [hp] at hst; simp [Phase.status] at hst

theorem clearDone_ending (is : List Nat) (s : State (Nat → Phase)) :
    ∃ s' t, clearDone ending is s = (.ok (), s', t) ∧ Le s.w s'.w := by
  induction is generalizing s with
  | nil => exact ⟨s, [], rfl, Le.refl _⟩
  | cons i is ih =>
    unfold clearDone
    rw [bind_ok _ _ s { s with w := upd s.w i (s.w i).polled } (s.w i).status [.polled i (.ok (s.w i).status)] rfl]
    dsimp only
    by_cases hst : (s.w i).status = .done
    · rw [if_pos hst, bind_ok _ _ _ ({ subs := s.subs.erase i, w := upd s.w i (s.w i).polled } : State _) () [] rfl]
      obtain ⟨s', t, h1, h2⟩ := ih { subs := s.subs.erase i, w := upd s.w i (s.w i).polled }
      rw [h1]
      exact ⟨s', _, rfl, (le_polled s.w i).trans h2⟩
    · rw [if_neg hst]
      obtain ⟨s', t, h1, h2⟩ := ih { s with w := upd s.w i (s.w i).polled }
      rw [h1]
      exact ⟨s', _, rfl, (le_polled s.w i).trans h2⟩

theorem finish_ending (clear : Bool) (s : State (Nat → Phase)) (hd : ∀ j ∈ s.subs, s.w j = .done) :
    ∃ s' t, finish ending clear s = (.ok .done, s', t) ∧ Le s.w s'.w := by
  obtain ⟨r, s1, t1, h1, h2, h3, h4⟩ := compStatus_ending s
  have hr : r = .done := by
    rcases h4 with h | ⟨_, i, hi, h⟩ | ⟨_, a, i, b, n, he, _, h⟩
    · exact h.1
    · rw [hd i hi] at h; simp [weight] at h
    · have := h3.done i (hd i (by simp [he]))
      rw [this] at h; simp at h
  subst hr
  have hrec : record ending s1 = (.ok (), s1, []) := rfl
  unfold finish
  rw [bind_ok _ _ _ _ _ _ h1]
  dsimp only
  rw [if_pos rfl, bind_ok _ _ _ _ _ _ hrec]
  cases clear with
  | false => exact ⟨s1, _, rfl, h3⟩
  | true =>
    simp only [if_true]
    rw [bind_ok _ _ s1 s1 s1.subs [] rfl]
    obtain ⟨s', t, h5, h6⟩ := clearDone_ending s1.subs s1
    rw [bind_ok _ _ _ _ _ _ h5]
    exact ⟨s', _, rfl, h3.trans h6⟩

def total (L : List Nat) (w : Nat → Phase) : Nat := (L.map fun i => weight (w i)).sum

theorem total_le (L : List Nat) (w w' : Nat → Phase) (h : Le w w') : total L w' ≤ total L w := by
  induction L with
  | nil => simp [total]
  | cons i L ih =>
    have := h.weight i
    simp only [total, List.map_cons, List.sum_cons] at *
    omega

theorem total_lt (L : List Nat) (w w' : Nat → Phase) (h : Le w w') (i : Nat) (hi : i ∈ L) (hlt : weight (w' i) < weight (w i)) :
    total L w' < total L w := by
  induction L with
  | nil => simp at hi
  | cons j L ih =>
    have h1 := h.weight j
    have h2 := total_le L w w' h
    simp only [total, List.map_cons, List.sum_cons] at *
    by_cases hj : i = j
    · subst hj; omega
    · have := ih (by rcases List.mem_cons.1 hi with h | h; exact absurd h hj; exact h)
      omega

/-- C19. `build(complete=True)` of a composite builder, sequential or parallel, whose sub-builders' processes all
end at some time, comes to an end, reports 'done', and has built every sub-builder. -/
theorem C19_completes (par clear : Bool) (s : State (Nat → Phase)) :
    ∃ fuel s' t, buildComplete ending par clear fuel s = (.ok (some .done), s', t) ∧ ∀ j ∈ s.subs, s'.w j = .done := by
  have key : ∀ n s, total s.subs s.w < n →
      ∃ s' t, buildComplete ending par clear n s = (.ok (some .done), s', t) ∧ ∀ j ∈ s.subs, s'.w j = .done := by
    intro n
    induction n with
    | zero => intro s h; omega
    | succ n ih =>
      intro s hs
      obtain ⟨r, s1, t1, h1, h2, h3, h4⟩ := compStatus_ending s
      unfold buildComplete
      rw [bind_ok _ _ _ _ _ _ h1]
      by_cases hd : r = .done
      · subst hd
        rw [if_neg (by simp)]
        have hall : ∀ j ∈ s.subs, s1.w j = .done := by
          rcases h4 with h | ⟨h, _⟩ | ⟨h, _⟩
          · exact h.2
          · simp at h
          · simp at h
        obtain ⟨s', t, h5, h6⟩ := finish_ending clear s1 (by rw [h2]; exact hall)
        rw [bind_ok _ _ _ _ _ _ h5]
        exact ⟨s', _, rfl, fun j hj => h6.done j (hall j hj)⟩
      · rw [if_pos (by rcases h4 with h | h | h; exact absurd h.1 hd; exact Or.inl h.1; exact Or.inr h.1)]
        obtain ⟨s2, t2, g1, g2, g3, g4⟩ := runOnce_ending par s1.subs s1
        rw [bind_ok _ _ s1 s1 s1.subs [] rfl, bind_ok _ _ _ _ _ _ g1]
        have hsub : s2.subs = s.subs := g2.trans h2
        have hlt : total s2.subs s2.w < n := by
          rw [hsub]
          refine Nat.lt_of_lt_of_le ?_ (Nat.le_of_lt_succ hs)
          rcases h4 with h | ⟨_, i, hi, h⟩ | ⟨_, a, i, b, m, he, ha, hi⟩
          · exact absurd h.1 hd
          · exact total_lt s.subs s.w s2.w (h3.trans g3) i hi (Nat.lt_of_le_of_lt (g3.weight i) h)
          · refine total_lt s.subs s.w s2.w (h3.trans g3) i (by simp [he]) ?_
            exact Nat.lt_of_lt_of_le (g4 a i b m (by rw [h2, he]) ha hi) (h3.weight i)
        obtain ⟨s', t, k1, k2⟩ := ih s2 hlt
        rw [k1]
        exact ⟨s', _, rfl, fun j hj => k2 j (by rw [hsub]; exact hj)⟩
  obtain ⟨s', t, h1, h2⟩ := key (total s.subs s.w + 1) s (by omega)
  exact ⟨_, s', t, h1, h2⟩

/-! ### C50 -/

/-- C50. In any history of a builder its command is submitted at most once, and exactly if there is a future. -/
theorem C50_submitted_once (ops : List Op) :
    (Leaf.new.run ops).submitted = if (Leaf.new.run ops).future = none then 0 else 1 := by
  have key : ∀ (l : Leaf), (l.submitted = if l.future = none then 0 else 1) → ∀ op,
      ((l.step op).submitted = if (l.step op).future = none then 0 else 1) := by
    intro l h op
    have hmp : ∀ s, (l.missingParameters s).2.future = l.future ∧ (l.missingParameters s).2.submitted = l.submitted := by
      intro s; unfold Leaf.missingParameters; split <;> (try split) <;> simp
    have hst : ∀ s, (l.status s).2.1.future = l.future ∧ (l.status s).2.1.submitted = l.submitted := by
      intro s
      have := hmp s
      unfold Leaf.status
      cases hm : l.missingParameters s with
      | mk b l' =>
        rw [hm] at this
        cases b with
        | true => exact this
        | false =>
          dsimp only
          split
          · exact this
          · split <;> (try split) <;> (try split) <;> exact this
    cases op with
    | status s => rw [Leaf.step, (hst s).1, (hst s).2]; exact h
    | round s =>
      have := hst s
      have hround : (l.round s).2.1 = (l.status s).2.1.runCmd ∨ (l.round s).2.1 = (l.status s).2.1 := by
        unfold Leaf.round
        split
        · rename_i heq; left; rw [heq]
        · rename_i heq; left; rw [heq]
        · right; rfl
      rw [Leaf.step]
      generalize (l.status s).2.1 = l' at *
      rcases hround with hr | hr
      · rw [hr]
        unfold Leaf.runCmd
        cases hf : l'.future with
        | none => rw [hf] at this; simp [this.2, h, ← this.1]
        | some f => rw [hf] at this; simp [this.2, h, ← this.1, hf]
      · rw [hr, this.1, this.2]; exact h
    | ends f =>
      simp only [Leaf.step]
      split
      · rename_i hf; simp [h, hf]
      · exact h
  have : ∀ ops l, (l.submitted = if l.future = none then 0 else 1) →
      ((Leaf.run l ops).submitted = if (Leaf.run l ops).future = none then 0 else 1) := by
    intro ops
    induction ops with
    | nil => intro l h; exact h
    | cons op ops ih => intro l h; exact ih _ (key l h op)
  exact this ops Leaf.new rfl

/-- C50. While the process runs, the builder reports 'building' unless it is known to be up to date. -/
theorem C50_building (l : Leaf) (s : Seen) (hr : l.future = some .running) (hn : s.needed = true)
    (hm : s.missing = false ∨ l.parametersFound = true) : (l.status s).1 = .ok .building := by
  have : ∃ l', l.missingParameters s = (false, l') ∧ l'.future = l.future := by
    unfold Leaf.missingParameters
    split
    · exact ⟨_, rfl, rfl⟩
    · rcases hm with h | h
      · simp [h]
      · simp_all
  obtain ⟨l', h1, h2⟩ := this
  simp [Leaf.status, h1, hn, h2, hr]

/-- C50. The builder reports 'done' only if the decider says it is up to date, or if its process ended with success and
the output file is there; and it records the build exactly in the latter case. -/
theorem C50_done (l : Leaf) (s : Seen) :
    ((l.status s).1 = .ok .done → s.needed = false ∨ (l.future = some (.ended 0) ∧ s.outExists = true)) ∧
    ((l.status s).2.2 = true → (l.status s).1 = .ok .done ∧ s.needed = true ∧ l.future = some (.ended 0) ∧
      s.outExists = true) := by
  have hmp : (l.missingParameters s).2.future = l.future := by
    unfold Leaf.missingParameters; split <;> (try split) <;> simp
  unfold Leaf.status
  cases hm : l.missingParameters s with
  | mk b l' =>
    rw [hm] at hmp
    dsimp only at hmp
    cases b with
    | true => simp
    | false =>
      dsimp only
      by_cases hn : s.needed = false
      · simp [hn]
      · have hn' : s.needed = true := by simpa using hn
        rw [if_neg hn, ← hmp]
        cases hf : l'.future with
        | none => simp [hn']
        | some f =>
          cases f with
          | running => simp [hn']
          | cancelled => simp [hn']
          | raised => simp [hn']
          | ended rc =>
            dsimp only
            by_cases hrc : rc = 0
            · by_cases ho : s.outExists = true <;> simp [hrc, ho, hn']
            · simp [hrc, hn']

/-- C50. After a failed run of a build that is still needed, asking for the status raises an error, and so does building. -/
theorem C50_failed (l : Leaf) (s : Seen) (hn : s.needed = true) (hm : s.missing = false ∨ l.parametersFound = true)
    (hf : l.future = some .raised ∨ ∃ rc, rc ≠ 0 ∧ l.future = some (.ended rc)) :
    (∃ e, (l.status s).1 = .error e) ∧ ∃ e, (l.round s).1 = .error e := by
  have : ∃ l', l.missingParameters s = (false, l') ∧ l'.future = l.future := by
    unfold Leaf.missingParameters
    split
    · exact ⟨_, rfl, rfl⟩
    · rcases hm with h | h
      · simp [h]
      · simp_all
  obtain ⟨l', h1, h2⟩ := this
  rcases hf with h | ⟨rc, hrc, h⟩ <;> simp [Leaf.round, Leaf.status, h1, hn, h2, h, *]

/-- The parameters were complete when a status was taken. -/
def SawAll : Op → Prop
  | .status s => s.missing = false
  | .round s => s.missing = false
  | .ends _ => False

/-- C50. After any history a builder reports missing parameters exactly if some are missing now and there were some
missing whenever it looked before. So it never starts without its parameters; but (finding) parameters that go missing
later are not noticed. -/
theorem C50_missing (ops : List Op) (s : Seen) :
    ((Leaf.new.run ops).status s).1 = .ok .missingParameters ↔ s.missing = true ∧ ∀ op ∈ ops, ¬ SawAll op := by
  have hst : ∀ (l : Leaf) (s : Seen), (l.status s).2.1.parametersFound = (l.parametersFound || !s.missing) := by
    intro l s
    unfold Leaf.status Leaf.missingParameters
    cases hp : l.parametersFound <;> cases hm : s.missing <;> simp [hp] <;> (repeat' split) <;> simp_all
  have hrd : ∀ (l : Leaf) (s : Seen), (l.round s).2.1.parametersFound = (l.parametersFound || !s.missing) := by
    intro l s
    have h := hst l s
    have hrun : ∀ l : Leaf, l.runCmd.parametersFound = l.parametersFound := by
      intro l; unfold Leaf.runCmd; split <;> rfl
    unfold Leaf.round
    split
    · rename_i e; rw [e] at h; simpa [hrun] using h
    · rename_i e; rw [e] at h; simpa [hrun] using h
    · exact h
  have key : ∀ (ops : List Op) (l : Leaf), ((l.run ops).parametersFound = true ↔ l.parametersFound = true ∨ ∃ op ∈ ops, SawAll op) := by
    intro ops
    induction ops with
    | nil => intro l; simp [Leaf.run]
    | cons op ops ih =>
      intro l
      have : l.run (op :: ops) = (l.step op).run ops := rfl
      rw [this, ih]
      have : (l.step op).parametersFound = true ↔ l.parametersFound = true ∨ SawAll op := by
        cases op with
        | status s => simp [Leaf.step, hst, SawAll]
        | round s => simp [Leaf.step, hrd, SawAll]
        | ends f => simp only [Leaf.step, SawAll, or_false]; split <;> simp
      rw [this]
      simp only [List.mem_cons, exists_eq_or_imp]
      exact or_assoc
  have hk := key ops Leaf.new
  simp only [show Leaf.new.parametersFound = false from rfl, Bool.false_eq_true, false_or] at hk
  have hstat : ∀ (l : Leaf), (l.status s).1 = .ok .missingParameters ↔ l.parametersFound = false ∧ s.missing = true := by
    intro l
    unfold Leaf.status Leaf.missingParameters
    cases hp : l.parametersFound <;> cases hm : s.missing <;> simp [hp] <;> (repeat' split) <;> simp_all
  rw [hstat]
  constructor
  · rintro ⟨h1, h2⟩
    exact ⟨h2, fun op hop ho => by rw [hk.2 ⟨op, hop, ho⟩] at h1; cases h1⟩
  · rintro ⟨h1, h2⟩
    refine ⟨?_, h1⟩
    cases hp : (Leaf.new.run ops).parametersFound with
    | false => rfl
    | true =>
      obtain ⟨op, hop, ho⟩ := hk.1 hp
      exact absurd ho (h2 op hop)

/-- Finding: a builder never runs again. Once its process has ended with success, it reports 'done' whatever its inputs
are by then, and records the output it has as up to date. -/
theorem C50_stale (l : Leaf) (c : Decider.Cfg) (fs : Decider.FS) (db : Dict Decider.Bytes Decider.Bytes)
    (parameters : List Decider.Item) (action : Decider.Bytes) (out : Str) (hf : l.future = some (.ended 0))
    (hp : parameters ≠ []) (hin : ∀ it ∈ parameters, Decider.missing fs it = false) (ho : fs out ≠ none) :
    ∃ l' db', l.statusIn c fs db parameters action out = some (.ok .done, l', db') ∧
      (c.buildNeeded fs db' (parameters ++ [.other action]) (.path out) false).map Prod.fst = some false := by
  have hfm : Decider.filesMissing fs (parameters ++ [.other action]) (.path out) = some false := by
    unfold Decider.filesMissing
    rw [if_neg (by simp), if_neg, if_neg]
    · simpa [Decider.missing] using ho
    · intro h
      obtain ⟨x, hx, h⟩ := List.any_eq_true.1 h
      rcases List.mem_append.1 hx with hx | hx
      · rw [hin x hx] at h; simp at h
      · simp only [List.mem_singleton] at hx; subst hx; simp [Decider.missing] at h
  have hdig : ∃ i o, c.calculateHash fs (parameters ++ [.other action]) (.path out) = some (i, o) := by
    have hm : ∀ (l : List Decider.Item), (∀ it ∈ l, Decider.missing fs it = false) → ∃ d, c.hashItems fs l = some d := by
      intro l hl
      have : ∃ bs, l.mapM (c.fed fs) = some bs := by
        induction l with
        | nil => exact ⟨[], rfl⟩
        | cons a l ih =>
          obtain ⟨bs, hbs⟩ := ih fun it hit => hl it (by simp [hit])
          have ha := hl a (by simp)
          have : ∃ b, c.fed fs a = some b := by
            cases a with
            | other b => exact ⟨b, rfl⟩
            | path p =>
              simp only [Decider.missing, Option.isNone_eq_false_iff] at ha
              obtain ⟨x, hx⟩ := Option.isSome_iff_exists.1 ha
              simp [Decider.Cfg.fed, hx]
          obtain ⟨b, hb⟩ := this
          exact ⟨b :: bs, by simp [List.mapM_cons, hb, hbs]⟩
      obtain ⟨bs, hbs⟩ := this
      exact ⟨_, by rw [Decider.Cfg.hashItems, hbs]; rfl⟩
    obtain ⟨i, hi⟩ := hm (sortedBy c.str (parameters ++ [.other action])) (by
      intro it hit
      rw [mem_sortedBy] at hit
      rcases List.mem_append.1 hit with h | h
      · exact hin it h
      · simp only [List.mem_singleton] at h; subst h; rfl)
    obtain ⟨o, ho'⟩ := hm [.path out] (by
      intro it hit
      simp only [List.mem_singleton] at hit; subst hit
      simp only [Decider.missing]
      cases hfo : fs out with
      | none => exact absurd hfo ho
      | some x => rfl)
    exact ⟨i, o, by simp [Decider.Cfg.calculateHash, hi, ho']⟩
  obtain ⟨i, o, hd⟩ := hdig
  have hmiss : (parameters.isEmpty || parameters.any (Decider.missing fs)) = false := by
    rw [Bool.or_eq_false_iff]
    refine ⟨by cases parameters <;> simp_all, ?_⟩
    rw [Bool.eq_false_iff]
    intro h
    obtain ⟨x, hx, h⟩ := List.any_eq_true.1 h
    rw [hin x hx] at h; simp at h
  have hout : (fs out).isSome = true := by
    cases hfo : fs out with
    | none => exact absurd hfo ho
    | some x => rfl
  have hmp : ∀ s : Seen, s.missing = false → ∃ l', l.missingParameters s = (false, l') ∧ l'.future = l.future := by
    intro s hs
    unfold Leaf.missingParameters
    split
    · exact ⟨_, rfl, rfl⟩
    · simp [hs]
  have hseen : see c fs db parameters action out = some ⟨false, decide (db.get? i ≠ some o), true⟩ := by
    unfold see
    simp only [Decider.Cfg.buildNeeded, hfm, hd, Option.map_some, hmiss, hout]
    rfl
  obtain ⟨l', h1, h2⟩ := hmp ⟨false, decide (db.get? i ≠ some o), true⟩ rfl
  unfold Leaf.statusIn
  rw [hseen]
  simp only [Option.bind_some, Leaf.status, h1]
  by_cases hget : db.get? i = some o
  · refine ⟨l', db, by simp [hget], ?_⟩
    simp [Decider.Cfg.buildNeeded, hfm, hd, hget]
  · refine ⟨l', db.set i o, ?_, ?_⟩
    · simp [hget, h2, hf, Decider.Cfg.buildNeeded, hfm, hd]
    · simp [Decider.Cfg.buildNeeded, hfm, hd, Dict.get?_set_self]

/-- A builder that runs: ready, then building, then done; and one that fails. -/
example : (Leaf.new.run [.round ⟨false, true, false⟩]).future = some .running ∧
    ((Leaf.new.run [.round ⟨false, true, false⟩, .ends (.ended 0)]).status ⟨false, true, true⟩).1 = .ok .done ∧
    ((Leaf.new.run [.round ⟨false, true, false⟩, .ends (.ended 1)]).status ⟨false, true, true⟩).1 = .error .buildError := by
  refine ⟨rfl, rfl, rfl⟩

/-! ### C23 -/

theorem register_get (d : Dict (Str × Str) Cls) (c : Cls) (k : Str × Str) :
    (register d c).get? k =
      if c.available = true ∧ c.active = true ∧ (c.inExt, c.outExt) = k then
        match d.get? k with
        | none => some c
        | some old => if old.priority < c.priority then some c else some old
      else d.get? k := by
  unfold register
  by_cases h : c.available = false ∨ c.active = false
  · rw [if_pos h, if_neg]
    rintro ⟨h1, h2, _⟩
    rcases h with h | h <;> simp_all
  · rw [if_neg h]
    have h1 : c.available = true := by cases hc : c.available <;> simp_all
    have h2 : c.active = true := by cases hc : c.active <;> simp_all
    by_cases hk : (c.inExt, c.outExt) = k
    · subst hk
      rw [if_pos ⟨h1, h2, rfl⟩]
      cases hg : d.get? (c.inExt, c.outExt) with
      | none => simp [Dict.get?_set_self]
      | some old =>
        dsimp only
        split
        · simp [Dict.get?_set_self]
        · exact hg
    · rw [if_neg (by rintro ⟨_, _, h⟩; exact hk h)]
      cases hg : d.get? (c.inExt, c.outExt) with
      | none => simp [Dict.get?_set, hk]
      | some old =>
        dsimp only
        split
        · simp [Dict.get?_set, hk]
        · rfl

/-- The registered builder for a pair of extensions: the best one, if there is any. -/
theorem registry_get (clss : List Cls) (i o : Str) :
    (∃ c, (registry clss).get? (i, o) = some c ∧ Best clss i o c) ∨
    ((registry clss).get? (i, o) = none ∧
      ¬ ∃ c ∈ clss, c.available = true ∧ c.active = true ∧ c.inExt = i ∧ c.outExt = o) := by
  have key : ∀ (pre suf : List Cls) (d : Dict (Str × Str) Cls),
      ((∃ c, d.get? (i, o) = some c ∧ Best pre i o c) ∨
        (d.get? (i, o) = none ∧ ¬ ∃ c ∈ pre, c.available = true ∧ c.active = true ∧ c.inExt = i ∧ c.outExt = o)) →
      ((∃ c, (suf.foldl register d).get? (i, o) = some c ∧ Best (pre ++ suf) i o c) ∨
        ((suf.foldl register d).get? (i, o) = none ∧
          ¬ ∃ c ∈ pre ++ suf, c.available = true ∧ c.active = true ∧ c.inExt = i ∧ c.outExt = o)) := by
    intro pre suf
    induction suf generalizing pre with
    | nil => intro d h; simpa using h
    | cons c suf ih =>
      intro d h
      rw [List.foldl_cons, show pre ++ c :: suf = (pre ++ [c]) ++ suf by simp]
      apply ih
      rw [register_get]
      by_cases hc : c.available = true ∧ c.active = true ∧ (c.inExt, c.outExt) = (i, o)
      · rw [if_pos hc]
        obtain ⟨h1, h2, h3⟩ := hc
        simp only [Prod.mk.injEq] at h3
        rcases h with ⟨old, hg, hb⟩ | ⟨hg, hno⟩
        · rw [hg]
          dsimp only
          obtain ⟨b1, b2, b3, b4, b5, b6⟩ := hb
          split
          · rename_i hlt
            refine Or.inl ⟨c, rfl, by simp, h1, h2, h3.1, h3.2, ?_⟩
            intro c' hc' a1 a2 a3 a4
            rcases List.mem_append.1 hc' with hc' | hc'
            · have := b6 c' hc' a1 a2 a3 a4; omega
            · simp only [List.mem_singleton] at hc'; subst hc'; exact Int.le_refl _
          · rename_i hlt
            refine Or.inl ⟨old, rfl, by simp [b1], b2, b3, b4, b5, ?_⟩
            intro c' hc' a1 a2 a3 a4
            rcases List.mem_append.1 hc' with hc' | hc'
            · exact b6 c' hc' a1 a2 a3 a4
            · simp only [List.mem_singleton] at hc'; subst hc'; omega
        · rw [hg]
          refine Or.inl ⟨c, rfl, by simp, h1, h2, h3.1, h3.2, ?_⟩
          intro c' hc' a1 a2 a3 a4
          rcases List.mem_append.1 hc' with hc' | hc'
          · exact absurd ⟨c', hc', a1, a2, a3, a4⟩ hno
          · simp only [List.mem_singleton] at hc'; subst hc'; exact Int.le_refl _
      · rw [if_neg hc]
        have hc' : ¬ (c.available = true ∧ c.active = true ∧ c.inExt = i ∧ c.outExt = o) := by
          rintro ⟨a1, a2, a3, a4⟩; exact hc ⟨a1, a2, by rw [a3, a4]⟩
        rcases h with ⟨old, hg, b1, b2, b3, b4, b5, b6⟩ | ⟨hg, hno⟩
        · refine Or.inl ⟨old, hg, by simp [b1], b2, b3, b4, b5, ?_⟩
          intro x hx a1 a2 a3 a4
          rcases List.mem_append.1 hx with hx | hx
          · exact b6 x hx a1 a2 a3 a4
          · simp only [List.mem_singleton] at hx; subst hx; exact absurd ⟨a1, a2, a3, a4⟩ hc'
        · refine Or.inr ⟨hg, ?_⟩
          rintro ⟨x, hx, ha⟩
          rcases List.mem_append.1 hx with hx | hx
          · exact hno ⟨x, hx, ha⟩
          · simp only [List.mem_singleton] at hx; subst hx; exact hc' ha
  have := key [] clss [] (Or.inr ⟨rfl, by simp⟩)
  rw [List.nil_append] at this
  exact this

/-- C23. Without a target: an available, active builder for the extensions with the highest priority is
returned, and nothing only if there is none. -/
theorem C23_by_extension (tracked : Dict Str (List Str)) (clss : List Cls) (i o : Str) :
    (∃ c, findBuilderCls tracked clss i o none = .cls c ∧ Best clss i o c) ∨
    (findBuilderCls tracked clss i o none = .nothing ∧
      ¬ ∃ c ∈ clss, c.available = true ∧ c.active = true ∧ c.inExt = i ∧ c.outExt = o) := by
  unfold findBuilderCls
  rcases registry_get clss i o with ⟨c, h1, h2⟩ | ⟨h1, h2⟩
  · exact Or.inl ⟨c, by simp [h1], h2⟩
  · exact Or.inr ⟨by simp [h1], h2⟩

theorem firstExt_spec (clss : List Cls) (i : Str) (exts : List Str) :
    (∃ a e b c, exts = a ++ e :: b ∧ firstExt (registry clss) i exts = some c ∧ Best clss i e c ∧
      ∀ e' ∈ a, ¬ ∃ c ∈ clss, c.available = true ∧ c.active = true ∧ c.inExt = i ∧ c.outExt = e') ∨
    (firstExt (registry clss) i exts = none ∧
      ∀ e' ∈ exts, ¬ ∃ c ∈ clss, c.available = true ∧ c.active = true ∧ c.inExt = i ∧ c.outExt = e') := by
  induction exts with
  | nil => exact Or.inr ⟨rfl, by simp⟩
  | cons e exts ih =>
    rcases registry_get clss i e with ⟨c, h1, h2⟩ | ⟨h1, h2⟩
    · exact Or.inl ⟨[], e, exts, c, rfl, by simp [firstExt, h1], h2, by simp⟩
    · rcases ih with ⟨a, e', b, c, rfl, g2, g3, g4⟩ | ⟨g1, g2⟩
      · refine Or.inl ⟨e :: a, e', b, c, rfl, by simp [firstExt, h1, g2], g3, ?_⟩
        intro x hx
        rcases List.mem_cons.1 hx with rfl | hx
        · exact h2
        · exact g4 x hx
      · refine Or.inr ⟨by simp [firstExt, h1, g1], ?_⟩
        intro x hx
        rcases List.mem_cons.1 hx with rfl | hx
        · exact h2
        · exact g2 x hx

/-- C23. With a target whose extensions are known: an input the target can use as it is is copied; another
is converted to the first of the target's extensions a builder exists for, by the best builder for that; and nothing
is returned only if there is no such builder. -/
theorem C23_by_target (tracked : Dict Str (List Str)) (clss : List Cls) (i o t : Str) (exts : List Str)
    (ht : tracked.get? (if t.head? = some '.' then t else '.' :: t) = some exts) :
    (i ∈ exts → (∃ c, findBuilderCls tracked clss i o (some t) = .cls c ∧ Best clss ".*".toList ".*".toList c) ∨
      (findBuilderCls tracked clss i o (some t) = .keyError ∧
        ¬ ∃ c ∈ clss, c.available = true ∧ c.active = true ∧ c.inExt = ".*".toList ∧ c.outExt = ".*".toList)) ∧
    (i ∉ exts →
      (∃ a e b c, exts = a ++ e :: b ∧ findBuilderCls tracked clss i o (some t) = .cls c ∧ Best clss i e c ∧
        ∀ e' ∈ a, ¬ ∃ c ∈ clss, c.available = true ∧ c.active = true ∧ c.inExt = i ∧ c.outExt = e') ∨
      (findBuilderCls tracked clss i o (some t) = .nothing ∧
        ∀ e' ∈ exts, ¬ ∃ c ∈ clss, c.available = true ∧ c.active = true ∧ c.inExt = i ∧ c.outExt = e')) := by
  constructor
  · intro hi
    rcases registry_get clss ".*".toList ".*".toList with ⟨c, h1, h2⟩ | ⟨h1, h2⟩
    · exact Or.inl ⟨c, by simp only [findBuilderCls, reduceCtorEq, if_false, ht, if_pos hi, h1], h2⟩
    · exact Or.inr ⟨by simp only [findBuilderCls, reduceCtorEq, if_false, ht, if_pos hi, h1], h2⟩
  · intro hi
    rcases firstExt_spec clss i exts with ⟨a, e, b, c, h1, h2, h3, h4⟩ | ⟨h1, h2⟩
    · exact Or.inl ⟨a, e, b, c, h1, by simp only [findBuilderCls, reduceCtorEq, if_false, ht, if_neg hi, h2], h3, h4⟩
    · exact Or.inr ⟨by simp only [findBuilderCls, reduceCtorEq, if_false, ht, if_neg hi, h1], h2⟩

/-- C23. Finding: with a target the requested output extension is not looked at: the result is the same for every
`out_ext`, and with an unknown target there is never a builder. -/
theorem C23_out_ext_ignored (tracked : Dict Str (List Str)) (clss : List Cls) (i o o' t : Str) :
    findBuilderCls tracked clss i o (some t) = findBuilderCls tracked clss i o' (some t) ∧
    (tracked.get? (if t.head? = some '.' then t else '.' :: t) = none →
      findBuilderCls tracked clss i o (some t) = .nothing) := by
  constructor
  · simp [findBuilderCls]
  · intro h
    simp only [findBuilderCls, reduceCtorEq, if_false, h]

example : findBuilderCls [(".html".toList, [".svg".toList])]
    [⟨"Low".toList, true, true, ".pdf".toList, ".svg".toList, 1⟩, ⟨"High".toList, true, true, ".pdf".toList, ".svg".toList, 5⟩,
     ⟨"Off".toList, true, false, ".pdf".toList, ".svg".toList, 9⟩] ".pdf".toList ".svg".toList (some "html".toList) =
    .cls ⟨"High".toList, true, true, ".pdf".toList, ".svg".toList, 5⟩ := by decide

end Verif.Builder
