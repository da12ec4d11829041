import Verif.Spec.Signals
import Verif.Lemmas.Dict

/-!
# C24: signals
-/

namespace Verif.Signals

open Verif

variable {W V E : Type}

theorem step_get (s : Sig) (op : Op) (o : Int) : (step s op).get? o =
    match op with
    | .reset => none
    | .connect r o' => if o' = o then some ((s.get? o).getD r) else s.get? o := by
  cases op with
  | reset => rfl
  | connect r o' =>
    simp only [step, connect]
    by_cases h : s.has o' = true
    · rw [if_pos h, Option.getD_none]
      split
      · rename_i he; subst he
        obtain ⟨v, hv⟩ := Option.isSome_iff_exists.1 h
        simp [hv]
      · rfl
    · rw [if_neg h, Option.getD_some, Dict.get?_set]
      by_cases he : o' = o
      · subst he
        have : s.get? o' = none := by
          cases hg : s.get? o' with
          | none => rfl
          | some v => simp [Dict.has, hg] at h
        simp [this]
      · simp [he]

theorem foldl_get (ops : List Op) (s : Sig) (o : Int) : (ops.foldl step s).get? o =
    if ops.any Op.isReset then firstAt o (sinceReset ops)
    else (s.get? o).or (firstAt o ops) := by
  induction ops generalizing s with
  | nil => simp [firstAt]
  | cons op ops ih =>
    rw [List.foldl_cons, ih, step_get]
    cases op with
    | reset =>
      simp only [List.any_cons, Op.isReset, Bool.true_or, if_true, sinceReset, Option.none_or]
      split
      · rfl
      · rename_i h
        have : sinceReset ops = ops := by
          cases ops with
          | nil => rfl
          | cons op ops =>
            simp only [List.any_cons, Bool.or_eq_true, not_or] at h
            cases op with
            | reset => simp [Op.isReset] at h
            | connect r o => rw [sinceReset, if_neg h.2]; simp
        rw [this]
    | connect r o' =>
      simp only [List.any_cons, Op.isReset, Bool.false_or]
      split
      · rename_i h
        rw [sinceReset, if_pos h]
        simp
      · simp only [firstAt]
        by_cases he : o' = o
        · simp only [if_pos he]
          cases s.get? o <;> simp
        · simp [if_neg he]

/-- C24. After any history of connecting and resetting, the receiver at an order is the first one that was connected with
it since the last reset. -/
theorem C24_history (ops : List Op) (o : Int) : (history ops).get? o = firstAt o (sinceReset ops) := by
  unfold history
  rw [foldl_get]
  split
  · rfl
  · rename_i h
    have : sinceReset ops = ops := by
      cases ops with
      | nil => rfl
      | cons op ops =>
        simp only [List.any_cons, Bool.or_eq_true, not_or] at h
        cases op with
        | reset => simp [Op.isReset] at h
        | connect r o => rw [sinceReset, if_neg h.2]; simp
    simp [this]

/-- C24. `connect` raises `DuplicateSignal` exactly if the order is in use; else it adds the receiver and changes
nothing else. A failed `connect` leaves the receivers unchanged. -/
theorem C24_connect (s : Sig) (r : Rec) (o : Int) :
    (connect s r o = none ↔ s.get? o ≠ none) ∧
    (∀ s', connect s r o = some s' → s'.get? o = some r ∧ (∀ o', o' ≠ o → s'.get? o' = s.get? o')) ∧
    (s.get? o ≠ none → step s (.connect r o) = s) := by
  have hh : s.has o = true ↔ s.get? o ≠ none := by
    unfold Dict.has
    cases s.get? o <;> simp
  simp only [step, connect]
  refine ⟨?_, ?_, ?_⟩
  · rw [← hh]; by_cases h : s.has o = true <;> simp [h]
  · intro s' h
    by_cases hc : s.has o = true
    · simp [hc] at h
    · rw [if_neg hc, Option.some.injEq] at h
      subst h
      exact ⟨Dict.get?_set_self _ _ _, fun o' ho => by rw [Dict.get?_set, if_neg (Ne.symm ho)]⟩
  · intro h
    rw [if_pos (hh.2 h)]; rfl

theorem history_nodup (ops : List Op) : (history ops).keys.Nodup := by
  unfold history
  suffices ∀ s : Sig, s.keys.Nodup → (ops.foldl step s).keys.Nodup from this [] (by simp)
  induction ops with
  | nil => intro s h; exact h
  | cons op ops ih =>
    intro s h
    rw [List.foldl_cons]
    apply ih
    cases op with
    | reset => simp [step]
    | connect r o =>
      simp only [step, connect]
      split
      · exact h
      · exact Dict.keys_set_nodup _ _ _ h

theorem insertItem_perm (a : Int × Rec) (l : List (Int × Rec)) : (insertItem a l).Perm (a :: l) := by
  induction l with
  | nil => exact List.Perm.refl _
  | cons b l ih =>
    unfold insertItem
    split
    · exact List.Perm.refl _
    · exact (List.Perm.cons b ih).trans (List.Perm.swap a b l)

theorem sortItems_perm (l : List (Int × Rec)) : (sortItems l).Perm l := by
  induction l with
  | nil => exact List.Perm.refl _
  | cons a l ih => exact (insertItem_perm a _).trans (List.Perm.cons a ih)

theorem insertItem_sorted (a : Int × Rec) (l : List (Int × Rec)) (h : l.Pairwise (fun x y => x.1 ≤ y.1)) :
    (insertItem a l).Pairwise (fun x y => x.1 ≤ y.1) := by
  induction l with
  | nil => simp [insertItem]
  | cons b l ih =>
    rw [List.pairwise_cons] at h
    unfold insertItem
    split
    · rename_i hle
      rw [List.pairwise_cons]
      refine ⟨?_, List.pairwise_cons.2 h⟩
      intro x hx
      rcases List.mem_cons.1 hx with rfl | hx
      · exact hle
      · exact Int.le_trans hle (h.1 x hx)
    · rename_i hle
      rw [List.pairwise_cons]
      refine ⟨?_, ih h.2⟩
      intro x hx
      rcases List.mem_cons.1 ((insertItem_perm a l).mem_iff.1 hx) with rfl | hx
      · omega
      · exact h.1 x hx

theorem sortItems_sorted (l : List (Int × Rec)) : (sortItems l).Pairwise (fun x y => x.1 ≤ y.1) := by
  induction l with
  | nil => simp [sortItems]
  | cons a l ih => exact insertItem_sorted a _ ih

theorem sortItems_strict (s : Sig) (hn : s.keys.Nodup) : (sortItems s).Pairwise (fun x y => x.1 < y.1) := by
  have h1 := sortItems_sorted s
  have h2 : ((sortItems s).map Prod.fst).Nodup := ((sortItems_perm s).map _).nodup_iff.2 hn
  rw [List.Nodup, List.pairwise_map] at h2
  exact (h1.and h2).imp fun h => by have := h.1; have := h.2; omega

theorem emitLoop_spec (env : Env W V E) (check : Bool) (l : List (Int × Rec)) (w : W) :
    ((emitLoop env check l w).2.2.map fun e => (e.order, e.receiver)) <+: l ∧
    (∀ vs, (emitLoop env check l w).1 = .ok vs →
      ((emitLoop env check l w).2.2.map fun e => (e.order, e.receiver)) = l ∧
      vs = (emitLoop env check l w).2.2.map Ev.value ∧
      ∀ o r e, Ev.called o r (.error e) ∉ (emitLoop env check l w).2.2) ∧
    (∀ e, (emitLoop env check l w).1 = .error e → ∃ evs o r, (emitLoop env check l w).2.2 = evs ++ [.called o r (.error e)]) := by
  induction l generalizing w with
  | nil => simp [emitLoop]
  | cons a l ih =>
    obtain ⟨o, r⟩ := a
    unfold emitLoop
    by_cases hc : ((!r.weak || env.alive r.id w) && (!check || env.enabled r.id w)) = true
    · rw [if_pos hc]
      cases hr : env.run r.id w with
      | mk res w1 =>
        cases res with
        | error e =>
          refine ⟨by simp [Ev.order, Ev.receiver], by simp, ?_⟩
          intro e' he
          simp only [Except.error.injEq] at he
          subst he
          exact ⟨[], o, r, rfl⟩
        | ok v =>
          dsimp only
          have := ih w1
          generalize emitLoop env check l w1 = x at *
          obtain ⟨res, w2, evs⟩ := x
          dsimp only at this ⊢
          obtain ⟨h1, h2, h3⟩ := this
          refine ⟨by rw [List.map_cons]; exact List.cons_prefix_cons.2 ⟨rfl, h1⟩, ?_, ?_⟩
          · intro vs hv
            cases res with
            | error e => simp [Except.map] at hv
            | ok vs' =>
              simp only [Except.map, Except.ok.injEq] at hv
              obtain ⟨g1, g2, g3⟩ := h2 vs' rfl
              subst hv
              exact ⟨by rw [List.map_cons, g1]; rfl, by simp [Ev.value, g2], by simpa using g3⟩
          · intro e he
            cases res with
            | ok vs' => simp [Except.map] at he
            | error e' =>
              simp only [Except.map, Except.error.injEq] at he
              subst he
              obtain ⟨a, b, c, h⟩ := h3 _ rfl
              exact ⟨.called o r (.ok v) :: a, b, c, by simp [h]⟩
    · rw [if_neg hc]
      have := ih w
      generalize emitLoop env check l w = x at *
      obtain ⟨res, w2, evs⟩ := x
      dsimp only at this ⊢
      obtain ⟨h1, h2, h3⟩ := this
      refine ⟨by rw [List.map_cons]; exact List.cons_prefix_cons.2 ⟨rfl, h1⟩, ?_, ?_⟩
      · intro vs hv
        cases res with
        | error e => simp [Except.map] at hv
        | ok vs' =>
          simp only [Except.map, Except.ok.injEq] at hv
          obtain ⟨g1, g2, g3⟩ := h2 vs' rfl
          subst hv
          exact ⟨by rw [List.map_cons, g1]; rfl, by simp [Ev.value, g2], by simpa using g3⟩
      · intro e he
        cases res with
        | ok vs' => simp [Except.map] at he
        | error e' =>
          simp only [Except.map, Except.error.injEq] at he
          subst he
          obtain ⟨a, b, c, h⟩ := h3 _ rfl
          exact ⟨.skipped o r :: a, b, c, by simp [h]⟩

/-- C24. Emitting a signal after any history goes through the receivers once each, in strictly ascending order; if none
raises it goes through all of them, and the values returned are those of the calls, in that order
(`None` for a receiver that is not called). If one raises, that is the last one called. -/
theorem C24_emit (env : Env W V E) (check : Bool) (ops : List Op) (w : W) :
    (emit env check (history ops) w).2.2.Pairwise (fun x y => x.order < y.order) ∧
    (∀ e ∈ (emit env check (history ops) w).2.2, (history ops).get? e.order = some e.receiver) ∧
    (∀ vs, (emit env check (history ops) w).1 = .ok vs →
      vs = (emit env check (history ops) w).2.2.map Ev.value ∧
      (∀ o r e, Ev.called o r (.error e) ∉ (emit env check (history ops) w).2.2) ∧
      ∀ o r, (history ops).get? o = some r → ∃ e ∈ (emit env check (history ops) w).2.2, e.order = o ∧ e.receiver = r) ∧
    (∀ e, (emit env check (history ops) w).1 = .error e →
      ∃ evs o r, (emit env check (history ops) w).2.2 = evs ++ [.called o r (.error e)]) := by
  have hn := history_nodup ops
  generalize history ops = s at *
  obtain ⟨h1, h2, h3⟩ := emitLoop_spec env check (sortItems s) w
  have hs := sortItems_strict s hn
  unfold emit
  refine ⟨?_, ?_, ?_, h3⟩
  · have := hs.sublist h1.sublist
    rw [List.pairwise_map] at this
    exact this
  · intro e he
    have : (e.order, e.receiver) ∈ sortItems s := h1.subset (List.mem_map.2 ⟨e, he, rfl⟩)
    exact Dict.get?_of_mem s hn _ _ ((sortItems_perm s).mem_iff.1 this)
  · intro vs hv
    obtain ⟨g1, g2, g3⟩ := h2 vs hv
    refine ⟨g2, g3, ?_⟩
    intro o r hor
    have : (o, r) ∈ sortItems s := (sortItems_perm s).mem_iff.2 (Dict.mem_of_get? s o r hor)
    rw [← g1] at this
    obtain ⟨e, he, hee⟩ := List.mem_map.1 this
    simp only [Prod.mk.injEq] at hee
    exact ⟨e, he, hee⟩

theorem emitLoop_called (env : Env W V E) (check : Bool) (live : Rec → Bool)
    (hl : ∀ r w, ((!r.weak || env.alive r.id w) && (!check || env.enabled r.id w)) = live r) (l : List (Int × Rec)) (w : W) :
    (∀ o r res, Ev.called o r res ∈ (emitLoop env check l w).2.2 → live r = true) ∧
    (∀ o r, Ev.skipped o r ∈ (emitLoop env check l w).2.2 → live r = false) := by
  induction l generalizing w with
  | nil => simp [emitLoop]
  | cons a l ih =>
    obtain ⟨o, r⟩ := a
    unfold emitLoop
    rw [hl]
    by_cases hc : live r = true
    · rw [if_pos hc]
      cases hr : env.run r.id w with
      | mk res w1 =>
        cases res with
        | error e => refine ⟨?_, by simp⟩; intro o' r' res h; simp at h; rw [h.2.1]; exact hc
        | ok v =>
          have := ih w1
          dsimp only
          constructor
          · intro o' r' res' h
            rcases List.mem_cons.1 h with h | h
            · simp only [Ev.called.injEq] at h; rw [h.2.1]; exact hc
            · exact this.1 o' r' res' h
          · intro o' r' h
            rcases List.mem_cons.1 h with h | h
            · simp at h
            · exact this.2 o' r' h
    · rw [if_neg hc]
      have := ih w
      dsimp only
      constructor
      · intro o' r' res' h
        rcases List.mem_cons.1 h with h | h
        · simp at h
        · exact this.1 o' r' res' h
      · intro o' r' h
        rcases List.mem_cons.1 h with h | h
        · simp only [Ev.skipped.injEq] at h; rw [h.2]; simpa using hc
        · exact this.2 o' r' h

/-- C24. If the receivers' lives and the tag's switches do not change meanwhile, exactly the receivers that live are
called, and for a tag signal exactly those of them that the tag does not switch off. -/
theorem C24_live (env : Env W V E) (check : Bool) (s : Sig) (w : W) (alive enabled : Nat → Bool)
    (ha : ∀ i w, env.alive i w = alive i) (he : ∀ i w, env.enabled i w = enabled i) :
    (∀ o r res, Ev.called o r res ∈ (emit env check s w).2.2 →
      (r.weak = true → alive r.id = true) ∧ (check = true → enabled r.id = true)) ∧
    (∀ o r, Ev.skipped o r ∈ (emit env check s w).2.2 →
      (r.weak = true ∧ alive r.id = false) ∨ (check = true ∧ enabled r.id = false)) := by
  have := emitLoop_called env check (fun r => (!r.weak || alive r.id) && (!check || enabled r.id))
    (fun r w => by rw [ha, he]) (sortItems s) w
  constructor
  · intro o r res h
    have h := this.1 o r res h
    cases hw : r.weak <;> cases check <;> simp_all
  · intro o r h
    have h := this.2 o r h
    revert h
    cases r.weak <;> cases check <;> cases alive r.id <;> cases enabled r.id <;> simp

/-- C24. `receivers_dict` gives the receivers by order that are alive. -/
theorem C24_receivers_dict (env : Env W V E) (s : Sig) (w : W) (o : Int) (i : Nat) :
    (o, i) ∈ receiversDict env s w ↔ ∃ r, (o, r) ∈ s ∧ r.id = i ∧ (r.weak = true → env.alive i w = true) := by
  unfold receiversDict
  rw [List.mem_map]
  constructor
  · rintro ⟨⟨o', r⟩, h, he⟩
    simp only [Prod.mk.injEq] at he
    obtain ⟨rfl, rfl⟩ := he
    rw [List.mem_filter] at h
    refine ⟨r, h.1, rfl, fun hw => ?_⟩
    simpa [hw] using h.2
  · rintro ⟨r, h, rfl, hw⟩
    refine ⟨(o, r), List.mem_filter.2 ⟨h, ?_⟩, rfl⟩
    cases hr : r.weak with
    | false => rfl
    | true => simp [hw hr]

theorem signalCalls_spec (names : List Str) (ns : Dict Str Nat) (next : Nat) (hb : ∀ n i, ns.get? n = some i → i < next)
    (hinj : ∀ n m i, ns.get? n = some i → ns.get? m = some i → n = m) :
    (signalCalls ns next names).length = names.length ∧
    (∀ (j : Nat) (n : Str) (i : Nat), names[j]? = some n → (signalCalls ns next names)[j]? = some i →
      (∀ i', ns.get? n = some i' → i = i') ∧ (ns.get? n = none → next ≤ i) ∧
      ∀ (j' : Nat) (n' : Str) (i' : Nat), names[j']? = some n' → (signalCalls ns next names)[j']? = some i' → (i = i' ↔ n = n')) := by
  induction names generalizing ns next with
  | nil => simp [signalCalls]
  | cons name names ih =>
    -- the namespace after the first call
    have hstep : ∃ i0 ns1 next1, signal ns next name = (i0, ns1, next1) ∧ ns1.get? name = some i0 ∧
        (∀ n i, ns1.get? n = some i → i < next1) ∧ (∀ n m i, ns1.get? n = some i → ns1.get? m = some i → n = m) ∧
        (∀ n i, ns.get? n = some i → ns1.get? n = some i) ∧ (∀ n, n ≠ name → ns1.get? n = ns.get? n) ∧
        next ≤ next1 ∧ (ns.get? name = none → next ≤ i0) := by
      unfold signal
      cases hg : ns.get? name with
      | some i => exact ⟨i, ns, next, rfl, hg, hb, hinj, fun _ _ h => h, fun _ _ => rfl, Nat.le_refl _, by simp⟩
      | none =>
        refine ⟨next, ns.set name next, next + 1, rfl, Dict.get?_set_self _ _ _, ?_, ?_, ?_, ?_, Nat.le_succ _, fun _ => Nat.le_refl _⟩
        · intro n i h
          rw [Dict.get?_set] at h
          split at h
          · simp only [Option.some.injEq] at h; omega
          · have := hb n i h; omega
        · intro n m i h h'
          rw [Dict.get?_set] at h h'
          split at h <;> split at h'
          · rename_i a b; rw [← a, b]
          · simp only [Option.some.injEq] at h
            have := hb m i h'; omega
          · simp only [Option.some.injEq] at h'
            have := hb n i h; omega
          · exact hinj n m i h h'
        · intro n i h
          rw [Dict.get?_set, if_neg (by rintro rfl; rw [hg] at h; simp at h)]; exact h
        · intro n hne
          rw [Dict.get?_set, if_neg (Ne.symm hne)]
    obtain ⟨i0, ns1, next1, h1, h2, h3, h4, h5, h6, h7, h8⟩ := hstep
    have hrun : signalCalls ns next (name :: names) = i0 :: signalCalls ns1 next1 names := by
      rw [signalCalls, h1]
    rw [hrun]
    obtain ⟨l1, l2⟩ := ih ns1 next1 h3 h4
    -- a later call against the first one
    have hfirst : ∀ (j : Nat) (n : Str) (i : Nat), names[j]? = some n → (signalCalls ns1 next1 names)[j]? = some i →
        (i = i0 ↔ n = name) := by
      intro j n i hn hi
      obtain ⟨a, b, _⟩ := l2 j n i hn hi
      constructor
      · rintro rfl
        cases hg : ns1.get? n with
        | none =>
          have := b hg
          have := h3 name _ h2
          omega
        | some i' =>
          have := a i' hg
          subst this
          exact h4 n name _ hg h2
      · rintro rfl; exact a i0 h2
    refine ⟨by simp [l1], ?_⟩
    intro j n i hn hi
    cases j with
    | zero =>
      simp only [List.getElem?_cons_zero, Option.some.injEq] at hn hi
      subst hn; subst hi
      refine ⟨?_, h8, ?_⟩
      · intro i' h
        have := h5 _ _ h
        rw [h2, Option.some.injEq] at this
        exact this
      · intro j' n' i' hn' hi'
        cases j' with
        | zero =>
          simp only [List.getElem?_cons_zero, Option.some.injEq] at hn' hi'
          subst hn'; subst hi'; simp
        | succ j' =>
          simp only [List.getElem?_cons_succ] at hn' hi'
          rw [eq_comm, eq_comm (b := n')]
          exact hfirst j' n' i' hn' hi'
    | succ j =>
      simp only [List.getElem?_cons_succ] at hn hi
      obtain ⟨a, b, c⟩ := l2 j n i hn hi
      refine ⟨fun i' h => a i' (h5 n i' h), ?_, ?_⟩
      · intro hnone
        by_cases hne : n = name
        · subst hne
          have := a i0 h2
          subst this
          exact h8 hnone
        · exact Nat.le_trans h7 (b (by rw [h6 n hne]; exact hnone))
      · intro j' n' i' hn' hi'
        cases j' with
        | zero =>
          simp only [List.getElem?_cons_zero, Option.some.injEq] at hn' hi'
          subst hn'; subst hi'
          exact hfirst j n i hn hi
        | succ j' =>
          simp only [List.getElem?_cons_succ] at hn' hi'
          exact c j' n' i' hn' hi'

/-- C24. In any sequence of `signal(name)` calls two calls return the same signal exactly if the names are the same. -/
theorem C24_signal_by_name (names : List Str) (j j' : Nat) (n n' : Str) (i i' : Nat) (hn : names[j]? = some n)
    (hn' : names[j']? = some n') (hi : (signalCalls [] 0 names)[j]? = some i)
    (hi' : (signalCalls [] 0 names)[j']? = some i') : i = i' ↔ n = n' :=
  ((signalCalls_spec names [] 0 (by simp) (by simp)).2 j n i hn hi).2.2 j' n' i' hn' hi'

/-- Three receivers, connected out of order, one of them dead and one refused. -/
example : let ops : List Op := [.connect ⟨7, false⟩ 300, .connect ⟨8, true⟩ (-5), .connect ⟨9, false⟩ 300, .connect ⟨4, true⟩ 20]
    emit (W := Unit) (E := Unit) ⟨fun i _ => i ≠ 4, fun _ _ => true, fun i w => (.ok i, w)⟩ false (history ops) () =
      (.ok [some 8, none, some 7], (), [.called (-5) ⟨8, true⟩ (.ok 8), .skipped 20 ⟨4, true⟩, .called 300 ⟨7, false⟩ (.ok 7)]) := by
  rfl

end Verif.Signals
