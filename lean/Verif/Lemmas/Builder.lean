import Verif.Spec.Builder
import Verif.Lemmas.Dict
import Mathlib.Data.List.Nodup

namespace Verif.Builder

open Verif

variable {W : Type}

theorem lastPoll_append (t t' : List Ev) (j : Nat) : lastPoll (t ++ t') j = (lastPoll t' j).or (lastPoll t j) := by
  induction t with
  | nil => simp [lastPoll]
  | cons e t ih =>
    cases e with
    | polled i r =>
      simp only [List.cons_append, lastPoll, ih]
      cases lastPoll t' j <;> simp
    | built i => simp only [List.cons_append, lastPoll, ih]

/-- The parts of a bind. -/
theorem bind_ok {α β : Type} (x : M W α) (f : α → M W β) (s s' : State W) (a : α) (t : List Ev) (h : x s = (.ok a, s', t)) :
    (x >>= f) s = ((f a s').1, (f a s').2.1, t ++ (f a s').2.2) := by
  show (match x s with
    | (.ok a, s', t) => ((f a s').1, (f a s').2.1, t ++ (f a s').2.2)
    | (.error e, s', t) => (.error e, s', t)) = _
  rw [h]

theorem bind_error {α β : Type} (x : M W α) (f : α → M W β) (s s' : State W) (e : Err) (t : List Ev)
    (h : x s = (.error e, s', t)) : (x >>= f) s = (.error e, s', t) := by
  show (match x s with
    | (.ok a, s', t) => ((f a s').1, (f a s').2.1, t ++ (f a s').2.2)
    | (.error e, s', t) => (.error e, s', t)) = _
  rw [h]

theorem pure_run {α : Type} (a : α) (s : State W) : (pure a : M W α) s = (.ok a, s, []) := rfl

/-- The invariant of a composite builder with the sub-builders `L`: some of them are left, those that are gone
last answered 'done', and each build of a sub-builder was started right after it answered 'ready', and, in a
sequential builder, when all earlier ones had last answered 'done'. -/
structure Inv (par : Bool) (L : List Nat) (subs : List Nat) (t : List Ev) : Prop where
  left : List.Sublist subs L
  gone : ∀ j ∈ L, j ∉ subs → lastPoll t j = some (.ok .done)
  started : ∀ t1 k t2, t = t1 ++ .built k :: t2 → k ∈ L ∧ t1.getLast? = some (.polled k (.ok .ready)) ∧
    (par = false → ∀ j, Before L j k → lastPoll t1 j = some (.ok .done))

theorem Inv.poll {par : Bool} {L subs : List Nat} {t : List Ev} (h : Inv par L subs t) (i : Nat) (hi : i ∈ subs)
    (r : Except Err Status) : Inv par L subs (t ++ [.polled i r]) where
  left := h.left
  gone j hj hn := by
    have : i ≠ j := by rintro rfl; exact hn hi
    rw [lastPoll_append]
    simp [lastPoll, this, h.gone j hj hn]
  started t1 k t2 he := by
    rcases List.eq_nil_or_concat t2 with rfl | ⟨t2', x, rfl⟩
    · have := List.append_inj' he rfl
      simp at this
    · rw [List.concat_eq_append] at he
      have h4 : t ++ [.polled i r] = (t1 ++ .built k :: t2') ++ [x] := by rw [he]; simp
      have := List.append_inj' h4 rfl
      exact h.started t1 k t2' this.1

/-- A step whose events are polls of sub-builders that are left. -/
def Keeps {α : Type} (par : Bool) (L : List Nat) (x : M W α) (s : State W) : Prop :=
  ∀ t, Inv par L s.subs t → Inv par L (x s).2.1.subs (t ++ (x s).2.2)

theorem poll_eq (S : Subs W) (i : Nat) (s : State W) :
    poll S i s = ((S.status i s.w).1, { s with w := (S.status i s.w).2 }, [.polled i (S.status i s.w).1]) := rfl

theorem buildSub_eq (S : Subs W) (i : Nat) (s : State W) :
    buildSub S i s = ((S.build i s.w).1, { s with w := (S.build i s.w).2 }, [.built i]) := rfl

theorem pollAll_inv (S : Subs W) (par : Bool) (L is : List Nat) (s : State W) (t : List Ev) (h : Inv par L s.subs t)
    (hi : ∀ i ∈ is, i ∈ s.subs) :
    (pollAll S is s).2.1.subs = s.subs ∧ Inv par L s.subs (t ++ (pollAll S is s).2.2) := by
  induction is generalizing s t with
  | nil => simp [pollAll, pure_run, h]
  | cons i is ih =>
    have hi0 := hi i (by simp)
    have h1 := h.poll i hi0 (S.status i s.w).1
    unfold pollAll
    cases hr : (S.status i s.w).1 with
    | error e =>
      rw [bind_error _ _ s { s with w := (S.status i s.w).2 } e [.polled i (.error e)] (by rw [poll_eq, hr])]
      rw [hr] at h1
      exact ⟨rfl, h1⟩
    | ok st =>
      rw [bind_ok _ _ s { s with w := (S.status i s.w).2 } st [.polled i (.ok st)] (by rw [poll_eq, hr])]
      rw [hr] at h1
      have h2 := ih { s with w := (S.status i s.w).2 } _ h1 fun j hj => hi j (by simp [hj])
      cases hq : pollAll S is { s with w := (S.status i s.w).2 } with
      | mk r rest =>
        obtain ⟨s', t'⟩ := rest
        rw [hq] at h2
        cases r with
        | error e =>
          rw [bind_error _ _ _ _ _ _ hq]
          exact ⟨h2.1, by simpa using h2.2⟩
        | ok sts =>
          rw [bind_ok _ _ _ _ _ _ hq]
          simp only [pure_run, List.append_nil]
          exact ⟨h2.1, by simpa using h2.2⟩

theorem compStatus_inv (S : Subs W) (par : Bool) (L : List Nat) (s : State W) (t : List Ev) (h : Inv par L s.subs t) :
    (compStatus S s).2.1.subs = s.subs ∧ Inv par L s.subs (t ++ (compStatus S s).2.2) := by
  have hp := pollAll_inv S par L s.subs s t h (fun i hi => hi)
  unfold compStatus
  rw [bind_ok _ _ s s s.subs [] rfl]
  cases hq : pollAll S s.subs s with
  | mk r rest =>
    obtain ⟨s', t'⟩ := rest
    rw [hq] at hp
    cases r with
    | error e => rw [bind_error _ _ _ _ _ _ hq]; simpa using hp
    | ok sts => rw [bind_ok _ _ _ _ _ _ hq]; simpa [pure_run] using hp

theorem before_of_split (L a c : List Nat) (j k : Nat) (hn : L.Nodup) (hs : List.Sublist (a ++ k :: c) L) (hb : Before L j k)
    (hj : j ∈ a ++ k :: c) : j ∈ a := by
  obtain ⟨x, y, z, rfl⟩ := hb
  have hjk : j ≠ k := by
    rintro rfl
    rw [List.nodup_append] at hn
    have := (List.nodup_cons.1 hn.2.1).1
    exact this (by simp)
  rcases List.mem_append.1 hj with h | h
  · exact h
  · exfalso
    have hjc : j ∈ c := by
      rcases List.mem_cons.1 h with h | h
      · exact absurd h hjk
      · exact h
    have h1 : List.Sublist [k, j] (x ++ j :: (y ++ k :: z)) := by
      refine List.Sublist.trans ?_ hs
      refine List.Sublist.trans ?_ (List.sublist_append_right a (k :: c))
      exact List.Sublist.cons_cons k (List.singleton_sublist.2 hjc)
    have h2 : List.Sublist [j, k] (x ++ j :: (y ++ k :: z)) := by
      refine List.Sublist.trans ?_ (List.sublist_append_right x _)
      exact List.Sublist.cons_cons j (List.singleton_sublist.2 (by simp))
    have key : ∀ (l : List Nat) (u v : Nat), l.Nodup → List.Sublist [u, v] l → List.Sublist [v, u] l → False := by
      intro l u v
      induction l with
      | nil => intro _ h; simp at h
      | cons e l ih =>
        intro hn h1 h2
        rw [List.nodup_cons] at hn
        cases h1 with
        | cons _ h1' =>
          cases h2 with
          | cons _ h2' => exact ih hn.2 h1' h2'
          | cons_cons _ h2' => exact hn.1 (h1'.subset (by simp))
        | cons_cons _ h1' =>
          cases h2 with
          | cons _ h2' => exact hn.1 (h2'.subset (by simp))
          | cons_cons _ h2' => exact hn.1 (by simpa using h1')
    exact key _ k j hn h1 h2

theorem Inv.build {par : Bool} {L subs : List Nat} {t : List Ev} (h : Inv par L subs t) (k : Nat) (a c : List Nat)
    (hn : L.Nodup) (hs : subs = a ++ k :: c) (ha : par = false → ∀ j ∈ a, lastPoll t j = some (.ok .done)) :
    Inv par L subs (t ++ [.polled k (.ok .ready), .built k]) where
  left := h.left
  gone j hj hns := by
    have hk : k ≠ j := by rintro rfl; exact hns (by simp [hs])
    rw [lastPoll_append]
    simp [lastPoll, hk, h.gone j hj hns]
  started t1 k' t2 he := by
    rcases List.eq_nil_or_concat t2 with rfl | ⟨t2', x, rfl⟩
    · have he' : (t ++ [.polled k (.ok .ready)]) ++ [.built k] = t1 ++ [.built k'] := by simpa using he
      obtain ⟨h1, h2⟩ := List.append_inj' he' rfl
      simp at h2; subst h2; subst h1
      refine ⟨h.left.subset (by simp [hs]), by simp, ?_⟩
      intro hp j hb
      rw [lastPoll_append]
      have hjk : k ≠ j := by
        rintro rfl
        obtain ⟨x, y, z, rfl⟩ := hb
        rw [List.nodup_append] at hn
        exact (List.nodup_cons.1 hn.2.1).1 (by simp)
      simp only [lastPoll, if_neg hjk, Option.or_none, Option.none_or]
      by_cases hj : j ∈ subs
      · exact ha hp j (before_of_split L a c j k hn (hs ▸ h.left) hb (hs ▸ hj))
      · exact h.gone j (by obtain ⟨x, y, z, rfl⟩ := hb; simp) hj
    · rw [List.concat_eq_append] at he
      have he' : (t ++ [.polled k (.ok .ready)]) ++ [.built k] = (t1 ++ .built k' :: t2') ++ [x] := by
        simpa using he
      obtain ⟨h1, h2⟩ := List.append_inj' he' rfl
      have hk : k ∈ subs := by simp [hs]
      exact (h.poll k hk (.ok .ready)).started t1 k' t2' h1

theorem runOnce_inv (S : Subs W) (par : Bool) (L : List Nat) (hn : L.Nodup) (a is : List Nat) (s : State W) (t : List Ev)
    (h : Inv par L s.subs t) (hs : s.subs = a ++ is) (ha : par = false → ∀ j ∈ a, lastPoll t j = some (.ok .done)) :
    (runOnce S par is s).2.1.subs = s.subs ∧ Inv par L s.subs (t ++ (runOnce S par is s).2.2) := by
  induction is generalizing s t a with
  | nil => simp [runOnce, pure_run, h]
  | cons i is ih =>
    have hi0 : i ∈ s.subs := by simp [hs]
    have h1 := h.poll i hi0 (S.status i s.w).1
    unfold runOnce
    cases hr : (S.status i s.w).1 with
    | error e =>
      rw [bind_error _ _ s { s with w := (S.status i s.w).2 } e [.polled i (.error e)] (by rw [poll_eq, hr])]
      rw [hr] at h1
      exact ⟨rfl, h1⟩
    | ok st =>
      rw [bind_ok _ _ s { s with w := (S.status i s.w).2 } st [.polled i (.ok st)] (by rw [poll_eq, hr])]
      rw [hr] at h1
      generalize hs1 : ({ s with w := (S.status i s.w).2 } : State W) = s1
      have hs1' : s1.subs = s.subs := by rw [← hs1]
      have hsub : s1.subs = (a ++ [i]) ++ is := by rw [hs1', hs]; simp
      have inj : (a ++ [i]).Nodup := by
        have := h.left.nodup hn
        rw [hs, show a ++ i :: is = (a ++ [i]) ++ is by simp, List.nodup_append] at this
        exact this.1
      have keepA : par = false → ∀ j ∈ a, lastPoll (t ++ [.polled i (.ok st)]) j = some (.ok .done) := by
        intro hp j hj
        have : i ≠ j := by
          rintro rfl
          rw [List.nodup_append] at inj
          exact inj.2.2 i hj i (by simp) rfl
        rw [lastPoll_append]
        simp [lastPoll, this, ha hp j hj]
      cases st with
      | done =>
        have := ih (a ++ [i]) s1 (t ++ [.polled i (.ok .done)]) (by rw [hs1']; exact h1) hsub (by
          intro hp j hj
          rcases List.mem_append.1 hj with hj | hj
          · exact keepA hp j hj
          · simp only [List.mem_singleton] at hj
            subst hj
            rw [lastPoll_append]; simp [lastPoll])
        rw [hs1'] at this
        simpa using this
      | building =>
        cases par with
        | false => simpa [pure_run, hs1'] using h1
        | true =>
          have := ih (a ++ [i]) s1 (t ++ [.polled i (.ok .building)]) (by rw [hs1']; exact h1) hsub (by simp)
          rw [hs1'] at this
          simpa using this
      | ready =>
        have hb := h.build i a is hn hs ha
        dsimp only
        cases hq : (S.build i s1.w).1 with
        | error e =>
          rw [bind_error _ _ s1 { s1 with w := (S.build i s1.w).2 } e [.built i] (by rw [buildSub_eq, hq])]
          exact ⟨hs1', by simpa using hb⟩
        | ok u =>
          rw [bind_ok _ _ s1 { s1 with w := (S.build i s1.w).2 } u [.built i] (by rw [buildSub_eq, hq])]
          cases par with
          | false => simpa [pure_run, hs1'] using hb
          | true =>
            have := ih (a ++ [i]) { s1 with w := (S.build i s1.w).2 } (t ++ [.polled i (.ok .ready), .built i])
              (by show Inv true L s1.subs _; rw [hs1']; exact hb) hsub (by simp)
            refine ⟨this.1.trans hs1', ?_⟩
            rw [← hs1']
            simpa using this.2
      | missingParameters => simpa [pure_run, hs1'] using h1
      | missingOutfile => simpa [pure_run, hs1'] using h1
      | cancelled => simpa [pure_run, hs1'] using h1

theorem Inv.remove {par : Bool} {L subs : List Nat} {t : List Ev} (h : Inv par L subs t) (hn : L.Nodup) (i : Nat)
    (hd : lastPoll t i = some (.ok .done)) : Inv par L (subs.erase i) t where
  left := (List.erase_sublist ..).trans h.left
  gone j hj hns := by
    by_cases hji : j = i
    · subst hji; exact hd
    · by_cases hjs : j ∈ subs
      · exact absurd ((List.mem_erase_of_ne hji).2 hjs) hns
      · exact h.gone j hj hjs
  started := h.started

theorem clearDone_inv (S : Subs W) (par : Bool) (L : List Nat) (hn : L.Nodup) (is : List Nat) (hni : is.Nodup) (s : State W)
    (t : List Ev) (h : Inv par L s.subs t) (hi : ∀ i ∈ is, i ∈ s.subs) :
    Inv par L (clearDone S is s).2.1.subs (t ++ (clearDone S is s).2.2) := by
  induction is generalizing s t with
  | nil => simpa [clearDone, pure_run] using h
  | cons i is ih =>
    rw [List.nodup_cons] at hni
    have h1 := h.poll i (hi i (by simp)) (S.status i s.w).1
    unfold clearDone
    cases hr : (S.status i s.w).1 with
    | error e =>
      rw [bind_error _ _ s { s with w := (S.status i s.w).2 } e [.polled i (.error e)] (by rw [poll_eq, hr])]
      rw [hr] at h1
      exact h1
    | ok st =>
      rw [bind_ok _ _ s { s with w := (S.status i s.w).2 } st [.polled i (.ok st)] (by rw [poll_eq, hr])]
      rw [hr] at h1
      dsimp only
      by_cases hst : st = .done
      · subst hst
        rw [if_pos rfl, bind_ok _ _ _ ({ subs := s.subs.erase i, w := (S.status i s.w).2 } : State W) () [] rfl]
        have h2 : Inv par L (s.subs.erase i) (t ++ [.polled i (.ok .done)]) :=
          h1.remove hn i (by rw [lastPoll_append]; simp [lastPoll])
        have := ih hni.2 { subs := s.subs.erase i, w := (S.status i s.w).2 } _ h2 (fun j hj => by
          have : j ≠ i := by rintro rfl; exact hni.1 hj
          exact (List.mem_erase_of_ne this).2 (hi j (by simp [hj])))
        simpa using this
      · rw [if_neg hst]
        have := ih hni.2 { s with w := (S.status i s.w).2 } _ h1 fun j hj => hi j (by simp [hj])
        simpa using this

/-- A computation keeps the invariant of the composite builder. -/
def Good {α : Type} (par : Bool) (L : List Nat) (x : M W α) : Prop :=
  ∀ s t, Inv par L s.subs t → Inv par L (x s).2.1.subs (t ++ (x s).2.2)

theorem Good.bind {α β : Type} {par : Bool} {L : List Nat} {x : M W α} {f : α → M W β} (hx : Good par L x)
    (hf : ∀ a, Good par L (f a)) : Good par L (x >>= f) := by
  intro s t h
  have h1 := hx s t h
  cases hq : x s with
  | mk r rest =>
    obtain ⟨s', t'⟩ := rest
    rw [hq] at h1
    cases r with
    | error e => rw [bind_error _ _ _ _ _ _ hq]; exact h1
    | ok a =>
      rw [bind_ok _ _ _ _ _ _ hq]
      have := hf a s' _ h1
      simpa [List.append_assoc] using this

theorem Good.pure {α : Type} (par : Bool) (L : List Nat) (a : α) : Good (W := W) par L (Pure.pure a : M W α) := by
  intro s t h; simpa [pure_run] using h

theorem compStatus_good (S : Subs W) (par : Bool) (L : List Nat) : Good par L (compStatus S) := by
  intro s t h
  obtain ⟨h1, h2⟩ := compStatus_inv S par L s t h
  rw [h1]; exact h2

theorem record_good (S : Subs W) (par : Bool) (L : List Nat) : Good par L (record S) := by
  intro s t h
  simpa [record] using h

theorem runOnce_good (S : Subs W) (par : Bool) (L : List Nat) (hn : L.Nodup) :
    Good par L (getSubs >>= fun subs => runOnce S par subs : M W Unit) := by
  intro s t h
  rw [bind_ok _ _ s s s.subs [] rfl]
  obtain ⟨h1, h2⟩ := runOnce_inv S par L hn [] s.subs s t h rfl (by simp)
  simp only [List.nil_append]
  rw [h1]; exact h2

theorem clearDone_good (S : Subs W) (par : Bool) (L : List Nat) (hn : L.Nodup) :
    Good par L (getSubs >>= fun subs => clearDone S subs : M W Unit) := by
  intro s t h
  rw [bind_ok _ _ s s s.subs [] rfl]
  simp only [List.nil_append]
  exact clearDone_inv S par L hn s.subs (h.left.nodup hn) s t h fun i hi => hi

theorem bind_assoc' {α β γ : Type} (x : M W α) (f : α → M W β) (g : β → M W γ) :
    (x >>= f) >>= g = x >>= fun a => f a >>= g := by
  funext s
  cases hq : x s with
  | mk r rest =>
    obtain ⟨s', t'⟩ := rest
    cases r with
    | error e => rw [bind_error _ _ _ _ _ _ (bind_error _ _ _ _ _ _ hq), bind_error _ _ _ _ _ _ hq]
    | ok a =>
      rw [bind_ok _ _ _ _ _ _ hq]
      cases hf : f a s' with
      | mk r rest =>
        obtain ⟨s2, t2⟩ := rest
        have e1 : (x >>= f) s = (r, s2, t' ++ t2) := by rw [bind_ok _ _ _ _ _ _ hq, hf]
        cases r with
        | error e => rw [bind_error _ _ _ _ _ _ e1, bind_error _ _ _ _ _ _ hf]
        | ok b => rw [bind_ok _ _ _ _ _ _ e1, bind_ok _ _ _ _ _ _ hf]; simp [List.append_assoc]

theorem finish_good (S : Subs W) (par clear : Bool) (L : List Nat) (hn : L.Nodup) : Good par L (finish S clear) := by
  unfold finish
  refine (compStatus_good S par L).bind fun st => ?_
  have h2 : Good par L (do
      if clear = true then do
        let subs ← getSubs
        clearDone S subs
      pure st : M W Status) := by
    dsimp only
    split
    · have := (clearDone_good S par L hn).bind fun _ => Good.pure par L st
      rw [bind_assoc'] at this
      exact this
    · exact Good.pure _ _ _
  dsimp only at h2 ⊢
  split
  · exact (record_good S par L).bind fun _ => h2
  · exact h2

theorem build_good (S : Subs W) (par clear : Bool) (L : List Nat) (hn : L.Nodup) : Good par L (build S par clear) := by
  unfold build
  refine (compStatus_good S par L).bind fun st => ?_
  dsimp only
  split
  · have := (runOnce_good S par L hn).bind fun _ => finish_good S par clear L hn
    exact this
  · exact finish_good S par clear L hn

theorem buildComplete_good (S : Subs W) (par clear : Bool) (L : List Nat) (hn : L.Nodup) (fuel : Nat) :
    Good par L (buildComplete S par clear fuel) := by
  induction fuel with
  | zero => exact Good.pure _ _ _
  | succ fuel ih =>
    unfold buildComplete
    refine (compStatus_good S par L).bind fun st => ?_
    split
    · have := (runOnce_good S par L hn).bind fun _ => ih
      rw [bind_assoc'] at this
      exact this
    · exact (finish_good S par clear L hn).bind fun _ => Good.pure _ _ _

theorem history_inv (S : Subs W) (par clear : Bool) (L : List Nat) (hn : L.Nodup) (cs : List (Call W)) (s : State W)
    (t : List Ev) (h : Inv par L s.subs t) :
    Inv par L (history S par clear s cs).1.subs (t ++ (history S par clear s cs).2) := by
  induction cs generalizing s t with
  | nil => simpa [history] using h
  | cons c cs ih =>
    have hc : Inv par L (call S par clear s c).1.subs (t ++ (call S par clear s c).2) := by
      cases c with
      | status => exact compStatus_good S par L s t h
      | build => exact build_good S par clear L hn s t h
      | complete fuel => exact buildComplete_good S par clear L hn fuel s t h
      | world f => simpa [call] using h
    have := ih _ _ hc
    simpa [history, List.append_assoc] using this

theorem inv_start (par : Bool) (L : List Nat) : Inv par L L [] where
  left := List.Sublist.refl _
  gone j hj hn := absurd hj hn
  started t1 k t2 h := by simp at h

end Verif.Builder
