import Verif.Spec.DocContext
import Verif.Lemmas.Context

namespace Verif.DocContext

open Verif Verif.Context Verif.Context.Spec Verif.DocContext.Spec

/-! ### Updates, entry by entry, without conditions on the keys -/

theorem fupdate_inv (P : Py) (rep : List Str) (ow : Bool) (G : FCtx) (k : Str) (Q : Option FVal → Prop)
    (hQ : ∀ o c r, Q o → G.get? k = some c → stepVal P rep ow k o (some c) = .ok r → Q r) (ks : List Str) :
    ∀ F F', Q (F.get? k) → fupdate P rep ow F G ks = .ok F' → Q (F'.get? k) := by
  induction ks with
  | nil => intro F F' h e; simp [fupdate, pure, Except.pure] at e; subst e; exact h
  | cons x ks ih =>
    intro F F' h e
    unfold fupdate at e
    simp only [List.foldlM_cons] at e
    have hk := fupdateKey_spec P rep ow G F x
    cases hs : stepVal P rep ow x (F.get? x) (G.get? x) with
    | error er =>
      rw [hs] at hk
      have hk : _ = Except.error er := hk
      rw [hk] at e; cases e
    | ok r =>
      rw [hs] at hk
      obtain ⟨F1, e1, e2, e3⟩ := hk
      rw [e1] at e
      refine ih F1 F' ?_ e
      by_cases hx : k = x
      · subst hx
        rw [e2]
        cases hg : G.get? k with
        | none => rw [hg] at hs; simp only [stepVal, Except.ok.injEq] at hs; rw [← hs]; exact h
        | some c => rw [hg] at hs; exact hQ _ c r h hg hs
      · rw [e3 k hx]; exact h

theorem fupdate_nodup (P : Py) (rep : List Str) (ow : Bool) (G : FCtx) (ks : List Str) :
    ∀ F F', F.keys.Nodup → fupdate P rep ow F G ks = .ok F' → F'.keys.Nodup := by
  induction ks with
  | nil => intro F F' h e; simp [fupdate, pure, Except.pure] at e; subst e; exact h
  | cons x ks ih =>
    intro F F' h e
    unfold fupdate at e
    simp only [List.foldlM_cons] at e
    cases hk : fupdateKey P rep ow G F x with
    | error er => rw [hk] at e; cases e
    | ok F1 =>
      rw [hk] at e
      refine ih F1 F' ?_ e
      unfold fupdateKey at hk
      cases hg : G.get? x with
      | none => rw [hg] at hk; cases hk; exact h
      | some c =>
        rw [hg] at hk
        cases hf : F.get? x with
        | none => rw [hf] at hk; cases hk; exact Dict.keys_set_nodup _ _ _ h
        | some o =>
          rw [hf] at hk
          cases ow with
          | false => cases hk; exact h
          | true =>
            simp only [Bool.not_true, Bool.false_eq_true, if_false] at hk
            cases hm : merge P (decide (x ∈ rep)) o c with
            | error er => rw [hm] at hk; cases hk
            | ok v => rw [hm] at hk; cases hk; exact Dict.keys_set_nodup _ _ _ h

theorem filter_nodup (F : FCtx) (p : Str × FVal → Bool) (h : F.keys.Nodup) : (Dict.keys (F.filter p)).Nodup := by
  have : List.Sublist (Dict.keys (F.filter p)) F.keys := List.Sublist.map _ (List.filter_sublist)
  exact this.nodup h

theorem freset_nodup (P : Py) (c : Cls) (F : FCtx) (Fp : Option FCtx) (Fi : FCtx) (h : F.keys.Nodup) (F' : FCtx)
    (e : freset P c F Fp Fi = .ok F') : F'.keys.Nodup := by
  obtain ⟨F1, h1, h2⟩ := freset_ok P c F Fp Fi F' e
  refine fupdate_nodup _ _ _ _ _ _ _ ?_ h2
  cases Fp with
  | none => subst h1; exact filter_nodup _ _ h
  | some p => exact fupdate_nodup _ _ _ _ _ _ _ (filter_nodup _ _ h) h1

/-! ### The parts of a reset -/

theorem set_other (F : FCtx) (k k' : Str) (v : FVal) (h : k ≠ k') : (F.set k v).get? k' = F.get? k' := by
  rw [Dict.get?_set, if_neg h]

theorem isNone_congr {F F' : FCtx} {k : Str} (h : F'.get? k = F.get? k) : isNone F' k = isNone F k := by
  unfold isNone; rw [h]

theorem setDocId_other (W : World) (src : Nat) (F : FCtx) (k : Str) (h : "doc_id".toList ≠ k) :
    (setDocId W src F).get? k = F.get? k := by
  unfold setDocId
  split
  · exact set_other _ _ _ _ h
  · split <;> exact set_other _ _ _ _ h

theorem setMtime_other (m : Option Int) (F : FCtx) (k : Str) (h : "mtime".toList ≠ k) :
    (setMtime m F).get? k = F.get? k := by
  unfold setMtime; cases m
  · rfl
  · exact set_other _ _ _ _ h

theorem setRoot_other (i : Nat) (F : FCtx) (k : Str) (h : "root_document".toList ≠ k) (h' : "is_root_document".toList ≠ k) :
    (setRoot i F).get? k = F.get? k := by
  unfold setRoot
  split
  · rw [set_other _ _ _ _ h', set_other _ _ _ _ h]
  · exact set_other _ _ _ _ h'

theorem setManager_other (i : Nat) (F : FCtx) (k : Str) (h : "label_manager".toList ≠ k) :
    (setManager i F).get? k = F.get? k := by
  unfold setManager
  split
  · exact set_other _ _ _ _ h
  · rfl

theorem setLevel_other (F F' : FCtx) (e : setLevel F = .ok F') (k : Str) (h : "level".toList ≠ k) :
    F'.get? k = F.get? k := by
  unfold setLevel at e
  split at e
  · cases e; exact set_other _ _ _ _ h
  · cases e; exact set_other _ _ _ _ h
  · cases e

theorem setPaths_other (W : World) (src : Nat) (F F' : FCtx) (e : setPaths W src F = .ok F') (k : Str) (h : "paths".toList ≠ k) :
    F'.get? k = F.get? k := by
  unfold setPaths at e
  split at e
  · cases e; exact set_other _ _ _ _ h
  · cases e; exact set_other _ _ _ _ h
  · cases e

/-- The entries that a reset sets. -/
def ownKeys : List Str :=
  ["src_filepath".toList, "doc_id".toList, "mtime".toList, "root_document".toList, "is_root_document".toList,
   "label_manager".toList, "level".toList, "paths".toList]

/-- What a reset does with what the base class leaves. -/
structure After (W : World) (i src : Nat) (m : Option Int) (F0 F' : FCtx) : Prop where
  mtime : F0.get? "mtime".toList = none → F'.get? "mtime".toList = m.map fun t => .atom (.float t)
  others : ∀ k, k ∉ ownKeys → F'.get? k = F0.get? k
  source : F'.get? "src_filepath".toList = some (.atom (pathVal src))
  id : F0.get? "doc_id".toList = none → F'.get? "doc_id".toList = some (.atom (.str (W.docId src)))
  newRoot : isNone F0 "root_document".toList = true →
    F'.get? "root_document".toList = some (.atom (docRef i)) ∧ F'.get? "is_root_document".toList = some (.atom (.bool true))
  oldRoot : isNone F0 "root_document".toList = false →
    F'.get? "root_document".toList = F0.get? "root_document".toList ∧ F'.get? "is_root_document".toList = some (.atom (.bool false))
  newManager : isNone F0 "label_manager".toList = true → F'.get? "label_manager".toList = some (.atom (managerVal i))
  oldManager : isNone F0 "label_manager".toList = false → F'.get? "label_manager".toList = F0.get? "label_manager".toList
  newLevel : F0.get? "level".toList = none → F'.get? "level".toList = some (.atom (.int 1))
  oldLevel : ∀ n, F0.get? "level".toList = some (.atom (.int n)) → F'.get? "level".toList = some (.atom (.int (n + 1)))
  paths : F0.get? "project_root".toList = some (.atom (pathVal W.root)) →
    F'.get? "paths".toList = some (.list (ownPaths W src))
  nodup : F0.keys.Nodup → F'.keys.Nodup

theorem setPaths_val (W : World) (src : Nat) (F F' : FCtx) (e : setPaths W src F = .ok F')
    (h : F.get? "project_root".toList = some (.atom (pathVal W.root))) :
    F'.get? "paths".toList = some (.list (ownPaths W src)) := by
  have key : ∀ r, some (FVal.atom r) = some (FVal.atom (pathVal W.root)) →
      FVal.list (if Value.atom r ∈ [Value.atom (pathVal (W.dir src))] then [Value.atom (pathVal (W.dir src))]
        else [Value.atom (pathVal (W.dir src))] ++ [Value.atom r]) = FVal.list (ownPaths W src) := by
    intro r hr
    cases hr
    unfold ownPaths
    by_cases hd : W.dir src = W.root
    · rw [if_pos (by rw [hd]; simp), if_pos hd, hd]
    · rw [if_neg (by simp [pathVal]; exact fun h => hd h.symm), if_neg hd]; rfl
  unfold setPaths at e
  split at e
  · rename_i r hr _
    cases e
    rw [Dict.get?_set_self]
    exact congrArg some (key r (by rw [← hr, h]))
  · rename_i r l hr _
    cases e
    rw [Dict.get?_set_self]
    exact congrArg some (key r (by rw [← hr, h]))
  · cases e

theorem docReset_after (W : World) (i src : Nat) (m : Option Int) (F : FCtx) (Fp : Option FCtx) (F' : FCtx)
    (e : docReset W i src m F Fp = .ok F') :
    ∃ F0, freset W.P cls F Fp (initial W) = .ok F0 ∧ After W i src m F0 F' := by
  unfold docReset at e
  cases h0 : freset W.P cls F Fp (initial W) with
  | error er => rw [h0] at e; cases e
  | ok F0 =>
    rw [h0] at e
    simp only [bind, Except.bind] at e
    refine ⟨F0, rfl, ?_⟩
    generalize h1 : F0.set "src_filepath".toList (.atom (pathVal src)) = F1 at e
    generalize h2 : setDocId W src F1 = F2 at e
    generalize h3 : setMtime m F2 = F3 at e
    generalize h4 : setRoot i F3 = F4 at e
    generalize h5 : setManager i F4 = F5 at e
    cases h6 : setLevel F5 with
    | error er => rw [h6] at e; cases e
    | ok F6 =>
      rw [h6] at e
      replace e : setPaths W src F6 = .ok F' := e
      have o1 : ∀ k, "src_filepath".toList ≠ k → F1.get? k = F0.get? k := fun k h => by rw [← h1]; exact set_other _ _ _ _ h
      have o2 : ∀ k, "doc_id".toList ≠ k → F2.get? k = F1.get? k := fun k h => by rw [← h2]; exact setDocId_other _ _ _ _ h
      have o3 : ∀ k, "mtime".toList ≠ k → F3.get? k = F2.get? k := fun k h => by rw [← h3]; exact setMtime_other _ _ _ h
      have o4 : ∀ k, "root_document".toList ≠ k → "is_root_document".toList ≠ k → F4.get? k = F3.get? k :=
        fun k h h' => by rw [← h4]; exact setRoot_other _ _ _ h h'
      have o5 : ∀ k, "label_manager".toList ≠ k → F5.get? k = F4.get? k := fun k h => by rw [← h5]; exact setManager_other _ _ _ h
      have o6 : ∀ k, "level".toList ≠ k → F6.get? k = F5.get? k := setLevel_other _ _ h6
      have o7 : ∀ k, "paths".toList ≠ k → F'.get? k = F6.get? k := setPaths_other _ _ _ _ e
      have r3 : F3.get? "root_document".toList = F0.get? "root_document".toList := by
        rw [o3 _ (by decide), o2 _ (by decide), o1 _ (by decide)]
      have m4 : F4.get? "label_manager".toList = F0.get? "label_manager".toList := by
        rw [o4 _ (by decide) (by decide), o3 _ (by decide), o2 _ (by decide), o1 _ (by decide)]
      have l5 : F5.get? "level".toList = F0.get? "level".toList := by
        rw [o5 _ (by decide), o4 _ (by decide) (by decide), o3 _ (by decide), o2 _ (by decide), o1 _ (by decide)]
      refine ⟨?_, ?_, ?_, ?_, ?_, ?_, ?_, ?_, ?_, ?_, ?_, ?_⟩
      · intro hn
        rw [o7 _ (by decide), o6 _ (by decide), o5 _ (by decide), o4 _ (by decide) (by decide), ← h3]
        unfold setMtime
        cases m with
        | none =>
          show F2.get? _ = none
          rw [o2 _ (by decide), o1 _ (by decide), hn]
        | some t => exact Dict.get?_set_self _ _ _
      · intro k hk
        simp only [ownKeys, List.mem_cons, List.not_mem_nil, or_false, not_or] at hk
        obtain ⟨a1, a2, a3, a4, a5, a6, a7, a8⟩ := hk
        rw [o7 k (Ne.symm a8), o6 k (Ne.symm a7), o5 k (Ne.symm a6), o4 k (Ne.symm a4) (Ne.symm a5), o3 k (Ne.symm a3),
          o2 k (Ne.symm a2), o1 k (Ne.symm a1)]
      · rw [o7 _ (by decide), o6 _ (by decide), o5 _ (by decide), o4 _ (by decide) (by decide), o3 _ (by decide),
          o2 _ (by decide), ← h1, Dict.get?_set_self]
      · intro hn
        rw [o7 _ (by decide), o6 _ (by decide), o5 _ (by decide), o4 _ (by decide) (by decide), o3 _ (by decide), ← h2]
        have : isNone F1 "doc_id".toList = true := by unfold isNone; rw [o1 _ (by decide), hn]
        unfold setDocId
        rw [if_pos this, Dict.get?_set_self]
      · intro hn
        have : isNone F3 "root_document".toList = true := by rw [isNone_congr r3]; exact hn
        rw [o7 _ (by decide), o6 _ (by decide), o5 _ (by decide), o7 _ (by decide), o6 _ (by decide), o5 _ (by decide), ← h4]
        unfold setRoot
        rw [if_pos this]
        exact ⟨by rw [set_other _ _ _ _ (by decide), Dict.get?_set_self], Dict.get?_set_self _ _ _⟩
      · intro hn
        have : isNone F3 "root_document".toList = false := by rw [isNone_congr r3]; exact hn
        rw [o7 _ (by decide), o6 _ (by decide), o5 _ (by decide), o7 _ (by decide), o6 _ (by decide), o5 _ (by decide), ← h4, ← r3]
        unfold setRoot
        rw [if_neg (by rw [this]; nofun)]
        exact ⟨set_other _ _ _ _ (by decide), Dict.get?_set_self _ _ _⟩
      · intro hn
        have : isNone F4 "label_manager".toList = true := by rw [isNone_congr m4]; exact hn
        rw [o7 _ (by decide), o6 _ (by decide), ← h5]
        unfold setManager
        rw [if_pos this, Dict.get?_set_self]
      · intro hn
        have : isNone F4 "label_manager".toList = false := by rw [isNone_congr m4]; exact hn
        rw [o7 _ (by decide), o6 _ (by decide), ← h5, ← m4]
        unfold setManager
        rw [if_neg (by rw [this]; nofun)]
      · intro hn
        rw [o7 _ (by decide)]
        unfold setLevel at h6
        rw [l5, hn] at h6
        cases h6
        exact Dict.get?_set_self _ _ _
      · intro n hn
        rw [o7 _ (by decide)]
        unfold setLevel at h6
        rw [l5, hn] at h6
        cases h6
        exact Dict.get?_set_self _ _ _
      · intro hr
        refine setPaths_val W src F6 F' e ?_
        rw [o6 _ (by decide), o5 _ (by decide), o4 _ (by decide) (by decide), o3 _ (by decide), o2 _ (by decide), o1 _ (by decide)]
        exact hr
      · intro n0
        have n1 : F1.keys.Nodup := by rw [← h1]; exact Dict.keys_set_nodup _ _ _ n0
        have n2 : F2.keys.Nodup := by
          rw [← h2]; unfold setDocId
          split
          · exact Dict.keys_set_nodup _ _ _ n1
          · split <;> exact Dict.keys_set_nodup _ _ _ n1
        have n3 : F3.keys.Nodup := by
          rw [← h3]; unfold setMtime; cases m
          · exact n2
          · exact Dict.keys_set_nodup _ _ _ n2
        have n4 : F4.keys.Nodup := by
          rw [← h4]; unfold setRoot
          split
          · exact Dict.keys_set_nodup _ _ _ (Dict.keys_set_nodup _ _ _ n3)
          · exact Dict.keys_set_nodup _ _ _ n3
        have n5 : F5.keys.Nodup := by
          rw [← h5]; unfold setManager
          split
          · exact Dict.keys_set_nodup _ _ _ n4
          · exact n4
        have n6 : F6.keys.Nodup := by
          unfold setLevel at h6
          split at h6
          · cases h6; exact Dict.keys_set_nodup _ _ _ n5
          · cases h6; exact Dict.keys_set_nodup _ _ _ n5
          · cases h6
        unfold setPaths at e
        split at e
        · cases e; exact Dict.keys_set_nodup _ _ _ n6
        · cases e; exact Dict.keys_set_nodup _ _ _ n6
        · cases e

/-- A reset does not raise if the base class's does not, the level is a number, the paths a list and the
project root is there. -/
theorem docReset_total (W : World) (i src : Nat) (m : Option Int) (F : FCtx) (Fp : Option FCtx) (F0 : FCtx)
    (h0 : freset W.P cls F Fp (initial W) = .ok F0)
    (hl : F0.get? "level".toList = none ∨ ∃ n, F0.get? "level".toList = some (.atom (.int n)))
    (hp : F0.get? "paths".toList = none ∨ ∃ l, F0.get? "paths".toList = some (.list l))
    (hr : F0.get? "project_root".toList = some (.atom (pathVal W.root))) :
    ∃ F', docReset W i src m F Fp = .ok F' := by
  unfold docReset
  rw [h0]
  simp only [bind, Except.bind]
  generalize h5 : setManager i (setRoot i (setMtime m (setDocId W src (F0.set "src_filepath".toList (.atom (pathVal src)))))) = F5
  have o5 : ∀ k, k ∉ ["src_filepath".toList, "doc_id".toList, "mtime".toList, "root_document".toList, "is_root_document".toList,
      "label_manager".toList] → F5.get? k = F0.get? k := by
    intro k hk
    simp only [List.mem_cons, List.not_mem_nil, or_false, not_or] at hk
    obtain ⟨a1, a2, a3, a4, a5, a6⟩ := hk
    rw [← h5, setManager_other _ _ _ (Ne.symm a6), setRoot_other _ _ _ (Ne.symm a4) (Ne.symm a5), setMtime_other _ _ _ (Ne.symm a3),
      setDocId_other _ _ _ _ (Ne.symm a2), set_other _ _ _ _ (Ne.symm a1)]
  have h6 : ∃ F6, setLevel F5 = .ok F6 := by
    unfold setLevel
    rw [o5 _ (by decide)]
    rcases hl with hl | ⟨n, hl⟩ <;> rw [hl] <;> exact ⟨_, rfl⟩
  obtain ⟨F6, h6⟩ := h6
  rw [h6]
  have o6 := setLevel_other _ _ h6
  show ∃ F', setPaths W src F6 = .ok F'
  unfold setPaths
  rw [o6 _ (by decide), o6 _ (by decide), o5 _ (by decide), o5 _ (by decide), hr]
  rcases hp with hp | ⟨l, hp⟩ <;> rw [hp] <;> exact ⟨_, rfl⟩

/-! ### What the base class leaves -/

theorem initial_nodup (W : World) : (initial W).keys.Nodup := by
  show ["project_root".toList, "target_root".toList, "environment".toList].Nodup
  decide

theorem initial_keys (W : World) : (initial W).keys = ["project_root".toList, "target_root".toList, "environment".toList] := rfl

theorem step_same (P : Py) (rep : List Str) (k : Str) (ty a b : Nat) :
    stepVal P rep true k (some (.atom (.other ty a))) (some (.atom (.other ty b))) = .ok (some (.atom (.other ty b))) := by
  simp [stepVal, merge, FVal.asValue, changeAtom, bind, Except.bind, Except.map]

theorem step_new (P : Py) (rep : List Str) (k : Str) (c : FVal) : stepVal P rep true k none (some c) = .ok (some c) := rfl

section
variable (W : World) (F : FCtx) (Fp : Option FCtx) (hp : ∀ p, Fp = some p → p.keys.Nodup) (F0 : FCtx)
  (h0 : freset W.P cls F Fp (initial W) = .ok F0)
include hp h0

theorem freset_kept (k : Str) (h1 : k ∈ cls.exclude) (h2 : k ∈ cls.doNotInherit) (h3 : k ∉ (initial W).keys) :
    F0.get? k = F.get? k := by
  have h := freset_get W.P cls F Fp (initial W) hp (initial_nodup W) F0 h0 k
  cases Fp with
  | none => simp only [resetVal, if_pos h1, if_neg h3, bind, Except.bind, pure, Except.pure, Except.ok.injEq] at h; exact h.symm
  | some p =>
    have : ¬ (k ∈ p.keys ∧ k ∉ cls.doNotInherit) := fun x => x.2 h2
    simp only [resetVal, if_pos h1, if_neg h3, if_neg this, bind, Except.bind, pure, Except.pure, Except.ok.injEq] at h; exact h.symm

theorem freset_dropped (k : Str) (h1 : k ∉ cls.exclude) (h2 : k ∈ cls.doNotInherit) (h3 : k ∉ (initial W).keys) :
    F0.get? k = none := by
  have h := freset_get W.P cls F Fp (initial W) hp (initial_nodup W) F0 h0 k
  cases Fp with
  | none => simp only [resetVal, if_neg h1, if_neg h3, bind, Except.bind, pure, Except.pure, Except.ok.injEq] at h; exact h.symm
  | some p =>
    have : ¬ (k ∈ p.keys ∧ k ∉ cls.doNotInherit) := fun x => x.2 h2
    simp only [resetVal, if_neg h1, if_neg h3, if_neg this, bind, Except.bind, pure, Except.pure, Except.ok.injEq] at h; exact h.symm

theorem freset_inherited (k : Str) (h1 : k ∉ cls.exclude) (h2 : k ∉ cls.doNotInherit) (h3 : k ∉ (initial W).keys) :
    F0.get? k = Fp.bind (fun p => p.get? k) := by
  have h := freset_get W.P cls F Fp (initial W) hp (initial_nodup W) F0 h0 k
  cases Fp with
  | none => simp only [resetVal, if_neg h1, if_neg h3, bind, Except.bind, pure, Except.pure, Except.ok.injEq] at h; exact h.symm
  | some p =>
    show F0.get? k = p.get? k
    by_cases hk : k ∈ p.keys
    · have hc : k ∈ p.keys ∧ k ∉ cls.doNotInherit := ⟨hk, h2⟩
      have : ∃ c, p.get? k = some c := by
        have := (Dict.get?_isSome_iff p k).2 hk
        exact Option.isSome_iff_exists.1 this
      obtain ⟨c, hc'⟩ := this
      simp only [resetVal, if_neg h1, if_neg h3, if_pos hc, hc', step_new, bind, Except.bind, pure, Except.pure, Except.ok.injEq] at h
      rw [hc']; exact h.symm
    · have hc : ¬ (k ∈ p.keys ∧ k ∉ cls.doNotInherit) := fun x => hk x.1
      simp only [resetVal, if_neg h1, if_neg h3, if_neg hc, bind, Except.bind, pure, Except.pure, Except.ok.injEq] at h
      rw [(Dict.get?_eq_none_iff p k).2 hk]; exact h.symm

/-- An entry of the initial values, of a type of its own, whatever was there of that type. -/
theorem freset_initial (k : Str) (ty a : Nat) (h2 : k ∉ cls.doNotInherit)
    (h3 : (initial W).get? k = some (.atom (.other ty a)))
    (hF : F.get? k = none ∨ ∃ b, F.get? k = some (.atom (.other ty b)))
    (hP : ∀ p, Fp = some p → p.get? k = none ∨ ∃ b, p.get? k = some (.atom (.other ty b))) :
    F0.get? k = some (.atom (.other ty a)) := by
  have h := freset_get W.P cls F Fp (initial W) hp (initial_nodup W) F0 h0 k
  have h4 : k ∈ (initial W).keys := (Dict.get?_isSome_iff _ _).1 (by rw [h3]; rfl)
  have last : ∀ old, (old = none ∨ ∃ b, old = some (FVal.atom (.other ty b))) →
      stepVal W.P cls.replace true k old (some (.atom (.other ty a))) = .ok (some (.atom (.other ty a))) := by
    rintro _ (rfl | ⟨b, rfl⟩)
    · rfl
    · exact step_same _ _ _ _ _ _
  have ho : (if k ∈ cls.exclude then F.get? k else none) = none ∨ ∃ b, (if k ∈ cls.exclude then F.get? k else none) = some (FVal.atom (.other ty b)) := by
    split
    · exact hF
    · exact .inl rfl
  simp only [resetVal, if_pos h4, h3] at h
  generalize (if k ∈ cls.exclude then F.get? k else none) = old at h ho
  cases Fp with
  | none =>
    simp only [bind, Except.bind, pure, Except.pure] at h
    rw [last old ho] at h
    exact (Except.ok.inj h).symm
  | some p =>
    rcases hP p rfl with hn | ⟨b, hb⟩
    · have : ¬ (k ∈ p.keys ∧ k ∉ cls.doNotInherit) := fun x => (Dict.get?_eq_none_iff p k).1 hn x.1
      simp only [if_neg this, bind, Except.bind, pure, Except.pure] at h
      rw [last old ho] at h
      exact (Except.ok.inj h).symm
    · have hc : k ∈ p.keys ∧ k ∉ cls.doNotInherit := ⟨(Dict.get?_isSome_iff _ _).1 (by rw [hb]; rfl), h2⟩
      have first : stepVal W.P cls.replace true k old (some (.atom (.other ty b))) = .ok (some (.atom (.other ty b))) := by
        rcases ho with rfl | ⟨b', rfl⟩
        · rfl
        · exact step_same _ _ _ _ _ _
      simp only [if_pos hc, hb, first, bind, Except.bind] at h
      rw [last _ (.inr ⟨b, rfl⟩)] at h
      exact (Except.ok.inj h).symm

theorem freset_manager (hF : F.get? "label_manager".toList = none ∨ ∃ r, F.get? "label_manager".toList = some (.atom (managerVal r)))
    (hP : ∀ p, Fp = some p → p.get? "label_manager".toList = none ∨ ∃ r, p.get? "label_manager".toList = some (.atom (managerVal r))) :
    (∀ c, Fp.bind (fun p => p.get? "label_manager".toList) = some c → F0.get? "label_manager".toList = some c) ∧
    (Fp.bind (fun p => p.get? "label_manager".toList) = none → F0.get? "label_manager".toList = F.get? "label_manager".toList) := by
  have h := freset_get W.P cls F Fp (initial W) hp (initial_nodup W) F0 h0 "label_manager".toList
  have h1 : "label_manager".toList ∈ cls.exclude := by decide
  have h3 : "label_manager".toList ∉ (initial W).keys := by rw [initial_keys]; decide
  cases Fp with
  | none =>
    simp only [resetVal, if_pos h1, if_neg h3, bind, Except.bind, pure, Except.pure, Except.ok.injEq] at h
    exact ⟨(fun c hc => by simp at hc), fun _ => h.symm⟩
  | some p =>
    rcases hP p rfl with hn | ⟨b, hb⟩
    · have : ¬ ("label_manager".toList ∈ p.keys ∧ "label_manager".toList ∉ cls.doNotInherit) := fun x => (Dict.get?_eq_none_iff p _).1 hn x.1
      simp only [resetVal, if_pos h1, if_neg h3, if_neg this, bind, Except.bind, pure, Except.pure, Except.ok.injEq] at h
      exact ⟨(fun c hc => by rw [Option.bind_some, hn] at hc; cases hc), fun _ => h.symm⟩
    · have hc : "label_manager".toList ∈ p.keys ∧ "label_manager".toList ∉ cls.doNotInherit :=
        ⟨(Dict.get?_isSome_iff _ _).1 (by rw [hb]; rfl), by decide⟩
      have first : stepVal W.P cls.replace true "label_manager".toList (F.get? "label_manager".toList) (some (.atom (managerVal b))) =
          .ok (some (.atom (managerVal b))) := by
        rcases hF with hF | ⟨b', hF⟩ <;> rw [hF]
        · rfl
        · exact step_same _ _ _ _ _ _
      simp only [resetVal, if_pos h1, if_neg h3, if_pos hc, hb, first, bind, Except.bind, pure, Except.pure, Except.ok.injEq] at h
      exact ⟨(fun c hc => by rw [Option.bind_some, hb] at hc; rw [← h, ← hc]), fun hn => by rw [Option.bind_some, hb] at hn; cases hn⟩

end

/-- The entries of a parent context, or of the context itself, that a reset merges: of their types, if they are there. -/
structure Typed (F : FCtx) : Prop where
  nodup : F.keys.Nodup
  proot : F.get? "project_root".toList = none ∨ ∃ b, F.get? "project_root".toList = some (.atom (.other 1 b))
  troot : F.get? "target_root".toList = none ∨ ∃ b, F.get? "target_root".toList = some (.atom (.other 2 b))
  env : F.get? "environment".toList = none ∨ ∃ b, F.get? "environment".toList = some (.atom (.other 3 b))
  manager : F.get? "label_manager".toList = none ∨ ∃ r, F.get? "label_manager".toList = some (.atom (managerVal r))
  level : F.get? "level".toList = none ∨ ∃ n, F.get? "level".toList = some (.atom (.int n))

/-- A reset of the base class does not raise. -/
theorem freset_total (W : World) (F : FCtx) (Fp : Option FCtx) (hF : Typed F) (hP : ∀ p, Fp = some p → Typed p) :
    ∃ F0, freset W.P cls F Fp (initial W) = .ok F0 := by
  rw [freset_ok_iff W.P cls F Fp (initial W) (fun p hp => (hP p hp).nodup) (initial_nodup W)]
  intro k
  have typed : ∀ ty, (F.get? k = none ∨ ∃ b, F.get? k = some (.atom (.other ty b))) →
      (∀ p, Fp = some p → p.get? k = none ∨ ∃ b, p.get? k = some (.atom (.other ty b))) →
      ((initial W).get? k = none ∨ ∃ b, (initial W).get? k = some (.atom (.other ty b))) →
      ∃ r, resetVal W.P cls Fp (initial W) k (F.get? k) = .ok r := by
    intro ty h1 h2 h3
    have st : ∀ o c, (o = none ∨ ∃ b, o = some (FVal.atom (.other ty b))) → (c = none ∨ ∃ b, c = some (FVal.atom (.other ty b))) →
        ∃ r, stepVal W.P cls.replace true k o c = .ok r ∧ (r = none ∨ ∃ b, r = some (FVal.atom (.other ty b))) := by
      rintro o c ho (rfl | ⟨b, rfl⟩)
      · exact ⟨o, rfl, ho⟩
      · rcases ho with rfl | ⟨b', rfl⟩
        · exact ⟨_, rfl, .inr ⟨b, rfl⟩⟩
        · exact ⟨_, step_same _ _ _ _ _ _, .inr ⟨b, rfl⟩⟩
    unfold resetVal
    have ho : (if k ∈ cls.exclude then F.get? k else none) = none ∨ ∃ b, (if k ∈ cls.exclude then F.get? k else none) = some (FVal.atom (.other ty b)) := by
      split
      · exact h1
      · exact .inl rfl
    generalize (if k ∈ cls.exclude then F.get? k else none) = old at ho
    have fin : ∀ r, (r = none ∨ ∃ b, r = some (FVal.atom (.other ty b))) →
        ∃ x, (if k ∈ (initial W).keys then stepVal W.P cls.replace true k r ((initial W).get? k) else (pure r : Except Err _)) = .ok x := by
      intro r hr
      split
      · obtain ⟨r', e, _⟩ := st r _ hr h3; exact ⟨r', e⟩
      · exact ⟨r, rfl⟩
    cases Fp with
    | none => exact fin old ho
    | some p =>
      by_cases hc : k ∈ p.keys ∧ k ∉ cls.doNotInherit
      · obtain ⟨r, e, hr⟩ := st old (p.get? k) ho (h2 p rfl)
        simp only [if_pos hc, e, bind, Except.bind]
        exact fin r hr
      · simp only [if_neg hc, bind, Except.bind, pure, Except.pure]
        exact fin old ho
  by_cases k1 : k = "project_root".toList
  · subst k1; exact typed 1 hF.proot (fun p hp => (hP p hp).proot) (.inr ⟨W.root, rfl⟩)
  by_cases k2 : k = "target_root".toList
  · subst k2; exact typed 2 hF.troot (fun p hp => (hP p hp).troot) (.inr ⟨W.target, rfl⟩)
  by_cases k3 : k = "environment".toList
  · subst k3; exact typed 3 hF.env (fun p hp => (hP p hp).env) (.inr ⟨W.env, rfl⟩)
  have h3 : k ∉ (initial W).keys := by
    rw [initial_keys]
    simp only [List.mem_cons, List.not_mem_nil, or_false, not_or]
    exact ⟨k1, k2, k3⟩
  by_cases k4 : k = "label_manager".toList
  · subst k4; exact typed 4 hF.manager (fun p hp => (hP p hp).manager) (.inl rfl)
  by_cases k5 : k ∈ cls.doNotInherit
  · cases Fp with
    | none => exact ⟨_, by simp only [resetVal, if_neg h3, bind, Except.bind, pure, Except.pure]; rfl⟩
    | some p =>
      have : ¬ (k ∈ p.keys ∧ k ∉ cls.doNotInherit) := fun x => x.2 k5
      exact ⟨_, by simp only [resetVal, if_neg h3, if_neg this, bind, Except.bind, pure, Except.pure]; rfl⟩
  · have k6 : k ∉ cls.exclude := by
      intro hk
      simp only [cls, List.mem_cons, List.not_mem_nil, or_false] at hk
      rcases hk with rfl | rfl | rfl | rfl
      · exact k5 (by decide)
      · exact k4 rfl
      · exact k3 rfl
      · exact k5 (by decide)
    cases Fp with
    | none => exact ⟨_, by simp only [resetVal, if_neg h3, bind, Except.bind, pure, Except.pure]; rfl⟩
    | some p =>
      by_cases hc : k ∈ p.keys ∧ k ∉ cls.doNotInherit
      · obtain ⟨c, hg⟩ := Option.isSome_iff_exists.1 ((Dict.get?_isSome_iff p k).2 hc.1)
        exact ⟨some c, by simp only [resetVal, if_neg h3, if_neg k6, if_pos hc, hg, step_new, bind, Except.bind, pure, Except.pure]⟩
      · exact ⟨none, by simp only [resetVal, if_neg h3, if_neg k6, if_neg hc, bind, Except.bind, pure, Except.pure]⟩

/-- Everything a reset of a document's context leaves. -/
structure Facts (W : World) (i src : Nat) (m : Option Int) (F : FCtx) (Fp : Option FCtx) (F' : FCtx) : Prop where
  mtime : F'.get? "mtime".toList = m.map fun t => .atom (.float t)
  nodup : F'.keys.Nodup
  document : F'.get? "document".toList = F.get? "document".toList
  source : F'.get? "src_filepath".toList = some (.atom (pathVal src))
  env : F'.get? "environment".toList = some (.atom (envVal W.env))
  proot : F'.get? "project_root".toList = some (.atom (pathVal W.root))
  troot : F'.get? "target_root".toList = some (.atom (targetVal W.target))
  paths : F'.get? "paths".toList = some (.list (ownPaths W src))
  id : F'.get? "doc_id".toList = some (.atom (.str (W.docId src)))
  newRoot : Fp.bind (fun p => p.get? "root_document".toList) = none →
    F'.get? "root_document".toList = some (.atom (docRef i)) ∧ F'.get? "is_root_document".toList = some (.atom (.bool true))
  oldRoot : ∀ j, Fp.bind (fun p => p.get? "root_document".toList) = some (.atom (docRef j)) →
    F'.get? "root_document".toList = some (.atom (docRef j)) ∧ F'.get? "is_root_document".toList = some (.atom (.bool false))
  newLevel : Fp.bind (fun p => p.get? "level".toList) = none → F'.get? "level".toList = some (.atom (.int 1))
  oldLevel : ∀ n, Fp.bind (fun p => p.get? "level".toList) = some (.atom (.int n)) → F'.get? "level".toList = some (.atom (.int (n + 1)))
  inherited : ∀ r, Fp.bind (fun p => p.get? "label_manager".toList) = some (.atom (managerVal r)) →
    F'.get? "label_manager".toList = some (.atom (managerVal r))
  keptManager : ∀ r, Fp.bind (fun p => p.get? "label_manager".toList) = none → F.get? "label_manager".toList = some (.atom (managerVal r)) →
    F'.get? "label_manager".toList = some (.atom (managerVal r))
  newManager : Fp.bind (fun p => p.get? "label_manager".toList) = none → F.get? "label_manager".toList = none →
    F'.get? "label_manager".toList = some (.atom (managerVal i))
  others : ∀ k, k ∉ ownKeys → k ∉ cls.exclude → k ∉ (initial W).keys →
    F'.get? k = if k ∈ cls.doNotInherit then none else Fp.bind (fun p => p.get? k)

theorem docReset_facts (W : World) (i src : Nat) (m : Option Int) (F : FCtx) (Fp : Option FCtx) (F' : FCtx)
    (hF : Typed F) (hP : ∀ p, Fp = some p → Typed p) (e : docReset W i src m F Fp = .ok F') : Facts W i src m F Fp F' := by
  obtain ⟨F0, h0, A⟩ := docReset_after W i src m F Fp F' e
  have hn : ∀ p, Fp = some p → p.keys.Nodup := fun p hp => (hP p hp).nodup
  have kept := freset_kept W F Fp hn F0 h0
  have dropped := freset_dropped W F Fp hn F0 h0
  have inh := freset_inherited W F Fp hn F0 h0
  have init := freset_initial W F Fp hn F0 h0
  have mgr := freset_manager W F Fp hn F0 h0 hF.manager (fun p hp => (hP p hp).manager)
  have pr : F0.get? "project_root".toList = some (.atom (pathVal W.root)) :=
    init _ 1 W.root (by decide) rfl hF.proot (fun p hp => (hP p hp).proot)
  have hroot : F0.get? "root_document".toList = Fp.bind (fun p => p.get? "root_document".toList) :=
    inh _ (by decide) (by decide) (by rw [initial_keys]; decide)
  have hlevel : F0.get? "level".toList = Fp.bind (fun p => p.get? "level".toList) :=
    inh _ (by decide) (by decide) (by rw [initial_keys]; decide)
  constructor
  · exact A.mtime (dropped _ (by decide) (by decide) (by rw [initial_keys]; decide))
  · exact A.nodup (freset_nodup _ _ _ _ _ hF.nodup _ h0)
  · rw [A.others _ (by decide)]; exact kept _ (by decide) (by decide) (by rw [initial_keys]; decide)
  · exact A.source
  · rw [A.others _ (by decide)]; exact init _ 3 W.env (by decide) rfl hF.env (fun p hp => (hP p hp).env)
  · rw [A.others _ (by decide)]; exact pr
  · rw [A.others _ (by decide)]; exact init _ 2 W.target (by decide) rfl hF.troot (fun p hp => (hP p hp).troot)
  · exact A.paths pr
  · exact A.id (dropped _ (by decide) (by decide) (by rw [initial_keys]; decide))
  · intro h; exact A.newRoot (by unfold isNone; rw [hroot, h])
  · intro j h
    have := A.oldRoot (by unfold isNone; rw [hroot, h]; rfl)
    rw [hroot, h] at this
    exact this
  · intro h; exact A.newLevel (by rw [hlevel, h])
  · intro n h; exact A.oldLevel n (by rw [hlevel, h])
  · intro r h
    have := mgr.1 _ h
    rw [A.oldManager (by unfold isNone; rw [this]; rfl), this]
  · intro r h h'
    have := mgr.2 h
    rw [h'] at this
    rw [A.oldManager (by unfold isNone; rw [this]; rfl), this]
  · intro h h'
    have := mgr.2 h
    rw [h'] at this
    exact A.newManager (by unfold isNone; rw [this])
  · intro k h1 h2 h3
    rw [A.others k h1]
    split
    · rename_i h4; exact dropped k h2 h4 h3
    · rename_i h4; exact inh k h2 h4 h3

end Verif.DocContext
