import Verif.Lemmas.Context
import Verif.Spec.ContextCopy

namespace Verif.Context

open Verif Verif.Context.Spec

/-- What has been copied after the keys `done`. -/
structure Copying (h : Heap) (src : Dict Str Value) (done : List Str) (g : Heap) (d : Dict Str Value) : Prop where
  here : g[h.length]? = some (.dict d)
  kept : ∀ (a : Nat) (obj : Obj), h[a]? = some obj → g[a]? = some obj
  only : ∀ k v, d.get? k = some v → k ∈ done
  nodup : d.keys.Nodup
  absent : ∀ k ∈ done, src.get? k = none → d.get? k = none
  present : ∀ k ∈ done, ∀ v, src.get? k = some v → ∃ w, d.get? k = some w ∧ CopyOf h g v w
  apart : ∀ k o, d.get? k = some (.ref o) → h.length < o ∧ o < g.length
  sep : ∀ k k' o, d.get? k = some (.ref o) → d.get? k' = some (.ref o) → k = k'

theorem copying_start (h : Heap) (src : Dict Str Value) : Copying h src [] (h ++ [.dict []]) [] where
  here := by simp
  kept := fun a obj ha => by
    rw [List.getElem?_append_left (lt_of_getElem? _ _ _ ha)]; exact ha
  only := fun k v hk => by simp [Dict.get?] at hk
  nodup := by simp [Dict.keys]
  absent := fun k hk => by simp at hk
  present := fun k hk => by simp at hk
  apart := fun k o hk => by simp [Dict.get?] at hk
  sep := fun k k' o hk => by simp [Dict.get?] at hk

theorem copyOf_mono {h g g' : Heap} (hk : ∀ (a : Nat) (obj : Obj), a ≠ h.length → g[a]? = .some obj → g'[a]? = .some obj)
    {v w : Value} (hc : CopyOf h g v w) (hne : w ≠ .ref h.length) : CopyOf h g' v w := by
  cases hc with
  | atom a => exact .atom a
  | object o o' obj h1 h2 h3 => exact .object o o' obj h1 (hk _ _ (fun e => hne (by rw [e])) h2) h3

/-- The addition of an entry for a new key. -/
theorem Copying.add {h : Heap} {src : Dict Str Value} {done : List Str} {g : Heap} {d : Dict Str Value}
    (hc : Copying h src done g d) {k : Str} (hk : k ∉ done) {v w : Value} (hv : src.get? k = .some v)
    (t : List Obj) (hw : CopyOf h (g ++ t) v w)
    (hnew : ∀ o, w = .ref o → g.length ≤ o ∧ o < g.length + t.length) :
    Copying h src (done ++ [k]) ((g ++ t).set h.length (.dict (d.set k w))) (d.set k w) := by
  have hlen : h.length < g.length := lt_of_getElem? _ _ _ hc.here
  have hdk : d.get? k = .none := by
    cases e : d.get? k with
    | none => rfl
    | some x => exact absurd (hc.only _ _ e) hk
  have gs : ∀ k', (d.set k w).get? k' = if k' = k then .some w else d.get? k' := by
    intro k'
    rw [Dict.get?_set]
    by_cases e : k' = k
    · rw [if_pos e, if_pos e.symm]
    · rw [if_neg e, if_neg (Ne.symm e)]
  have hother : ∀ (a : Nat) (obj : Obj), a ≠ h.length → g[a]? = .some obj →
      ((g ++ t).set h.length (.dict (d.set k w)))[a]? = .some obj := by
    intro a obj ha hg
    rw [List.getElem?_set_ne (Ne.symm ha), List.getElem?_append_left (lt_of_getElem? _ _ _ hg)]
    exact hg
  have hother' : ∀ (a : Nat) (obj : Obj), a ≠ h.length → (g ++ t)[a]? = .some obj →
      ((g ++ t).set h.length (.dict (d.set k w)))[a]? = .some obj := by
    intro a obj ha hg
    rw [List.getElem?_set_ne (Ne.symm ha)]
    exact hg
  refine ⟨?_, ?_, ?_, Dict.keys_set_nodup _ _ _ hc.nodup, ?_, ?_, ?_, ?_⟩
  · rw [List.getElem?_set_self (by simp; omega)]
  · intro a obj ha
    exact hother a obj (by have := lt_of_getElem? _ _ _ ha; omega) (hc.kept a obj ha)
  · intro k' v' hk'
    rw [gs] at hk'
    by_cases e : k' = k
    · subst e; simp
    · rw [if_neg e] at hk'
      simp [hc.only _ _ hk']
  · intro k' hk' hs
    by_cases e : k' = k
    · subst e; rw [hv] at hs; simp at hs
    · rw [gs, if_neg e]
      exact hc.absent k' (by simp [e] at hk'; exact hk') hs
  · intro k' hk' v' hs
    by_cases e : k' = k
    · subst e
      rw [hv] at hs; simp at hs; subst hs
      refine ⟨w, Dict.get?_set_self _ _ _, ?_⟩
      cases hw with
      | atom a => exact .atom a
      | object o o' obj h1 h2 h3 =>
        refine .object o o' obj h1 (hother' _ _ ?_ h2) h3
        have := hnew o' rfl
        omega
    · rw [gs, if_neg e]
      obtain ⟨w', e1, e2⟩ := hc.present k' (by simp [e] at hk'; exact hk') v' hs
      refine ⟨w', e1, copyOf_mono hother e2 ?_⟩
      rintro rfl
      have := hc.apart _ _ e1
      omega
  · intro k' o hk'
    simp only [List.length_set, List.length_append]
    rw [gs] at hk'
    by_cases e : k' = k
    · rw [if_pos e] at hk'
      have := hnew o (by simpa using hk')
      omega
    · rw [if_neg e] at hk'
      have := hc.apart _ _ hk'
      omega
  · intro k1 k2 o h1 h2
    rw [gs] at h1 h2
    by_cases e1 : k1 = k
    · by_cases e2 : k2 = k
      · rw [e1, e2]
      · rw [if_pos e1] at h1
        rw [if_neg e2] at h2
        have a1 := hnew o (by simpa using h1)
        have a2 := hc.apart _ _ h2
        omega
    · rw [if_neg e1] at h1
      by_cases e2 : k2 = k
      · rw [if_pos e2] at h2
        have a1 := hnew o (by simpa using h2)
        have a2 := hc.apart _ _ h1
        omega
      · rw [if_neg e2] at h2
        exact hc.sep _ _ _ h1 h2

/-- One key. -/
theorem copying_step (P : Py) (rec : Heap → Nat → Dict Str Value → Except Err Heap) (replace : List Str)
    {h : Heap} {src : Dict Str Value}
    (hsrc : ∀ k o, src.get? k = .some (.ref o) → ∃ obj, h[o]? = .some obj)
    {done : List Str} {g : Heap} {d : Dict Str Value} (hc : Copying h src done g d) {k : Str} (hk : k ∉ done) :
    ∃ g' d', updateKey P rec replace true h.length src g k = .ok g' ∧ Copying h src (done ++ [k]) g' d' := by
  have hdk : d.get? k = .none := by
    cases e : d.get? k with
    | none => rfl
    | some x => exact absurd (hc.only _ _ e) hk
  have hget : getKey g h.length k = .none := by unfold getKey; rw [hc.here]; exact hdk
  cases hs : src.get? k with
  | none =>
    refine ⟨g, d, by unfold updateKey; rw [hs], hc.here, hc.kept, ?_, hc.nodup, ?_, ?_, hc.apart, hc.sep⟩
    · intro k' v' h'; simp [hc.only _ _ h']
    · intro k' hk' h'
      by_cases e : k' = k
      · subst e; exact hdk
      · exact hc.absent k' (by simp [e] at hk'; exact hk') h'
    · intro k' hk' v' h'
      by_cases e : k' = k
      · subst e; rw [hs] at h'; simp at h'
      · exact hc.present k' (by simp [e] at hk'; exact hk') v' h'
  | some v =>
    cases v with
    | atom a =>
      have hadd := hc.add hk hs [] (.atom a) (by intro o ho; simp at ho)
      rw [List.append_nil] at hadd
      refine ⟨_, _, ?_, hadd⟩
      unfold updateKey
      rw [hs]
      simp only [hget, copyVal, setKey, hc.here]
    | ref o =>
      obtain ⟨obj, ho⟩ := hsrc k o hs
      have hlen : h.length < g.length := lt_of_getElem? _ _ _ hc.here
      have hadd := hc.add hk hs [obj] (w := .ref g.length)
        (.object o g.length obj ho (by simp) (by simp [New]; omega))
        (by intro o' ho'; simp at ho'; subst ho'; simp)
      refine ⟨_, _, ?_, hadd⟩
      unfold updateKey
      rw [hs]
      simp only [hget, copyVal, hc.kept o obj ho, setKey,
        List.getElem?_append_left hlen, hc.here]

theorem copying_fold (P : Py) (rec : Heap → Nat → Dict Str Value → Except Err Heap) (replace : List Str)
    {h : Heap} {src : Dict Str Value}
    (hsrc : ∀ k o, src.get? k = .some (.ref o) → ∃ obj, h[o]? = .some obj) (keys : List Str) :
    ∀ (done : List Str) (g : Heap) (d : Dict Str Value), Copying h src done g d → (done ++ keys).Nodup →
    ∃ g' d', keys.foldlM (updateKey P rec replace true h.length src) g = .ok g' ∧
      Copying h src (done ++ keys) g' d' := by
  induction keys with
  | nil => intro done g d hc _; exact ⟨g, d, rfl, by simpa using hc⟩
  | cons k keys ih =>
    intro done g d hc hn
    have hk : k ∉ done := by
      intro hm
      rw [List.nodup_append] at hn
      exact hn.2.2 k hm k (by simp) rfl
    obtain ⟨g1, d1, e1, c1⟩ := copying_step P rec replace hsrc hc hk
    obtain ⟨g2, d2, e2, c2⟩ := ih (done ++ [k]) g1 d1 c1 (by simpa using hn)
    refine ⟨g2, d2, ?_, by simpa using c2⟩
    rw [List.foldlM_cons, e1]
    exact e2

theorem filtered_copying (P : Py) (c : Cls) (h : Heap) (ctx : Nat) (keys : List Str) (hn : keys.Nodup)
    (hs : Sound h ctx) :
    ∃ h' d, filtered P c h ctx keys = .ok (h', h.length) ∧ Copying h (entries h ctx) keys h' d := by
  have hsrc : ∀ k o, (entries h ctx).get? k = .some (.ref o) → ∃ obj, h[o]? = .some obj := by
    intro k o hk
    apply hs k o
    unfold entries at hk
    split at hk
    · rename_i d hd; exact ⟨d, hd, hk⟩
    · simp [Dict.get?] at hk
  obtain ⟨g, d, e, hc⟩ := copying_fold P
    (fun h o d => matchUpdate P 4 [] true h o d d.keys) c.replace hsrc keys [] _ _
    (copying_start h (entries h ctx)) (by simpa using hn)
  refine ⟨g, d, ?_, by simpa using hc⟩
  unfold filtered
  have e' : matchUpdate P maxLeft c.replace true (h ++ [.dict []]) h.length (entries h ctx) keys = .ok g := e
  rw [e']
  rfl

theorem isInstance_iff (h : Heap) (v : Value) (t : Ty) : isInstance h v t = true ↔ HasType h v t := by
  cases v with
  | atom a => cases a <;> cases t <;> simp [isInstance, HasType] <;> exact eq_comm
  | ref o =>
    unfold isInstance
    cases e : h[o]? with
    | none => cases t <;> simp [HasType, e]
    | some obj => cases obj <;> cases t <;> simp [HasType, e]

theorem validLoop_iff (types : Dict Str (Option Ty)) (mustExist : Bool) (h : Heap) (d : Dict Str Value) (keys : List Str) :
    validLoop types mustExist h d keys = true ↔ ∀ k ∈ keys,
      (d.get? k = .none → mustExist = false) ∧
      ∀ v t, d.get? k = .some v → types.get? k = .some (.some t) → HasType h v t := by
  induction keys with
  | nil => simp [validLoop]
  | cons k keys ih =>
    rw [List.forall_mem_cons, ← ih, validLoop]
    cases hd : d.get? k with
    | none => cases mustExist <;> simp
    | some v =>
      cases ht : types.get? k with
      | none => simp
      | some o =>
        cases o with
        | none => simp
        | some t =>
          simp only [Option.join_some]
          by_cases hi : isInstance h v t = true
          · have := (isInstance_iff h v t).1 hi
            simp [hi, this]
          · have : ¬ HasType h v t := fun hh => hi ((isInstance_iff h v t).2 hh)
            simp [hi, this]

/-- The part of a content for the given keys, in the order of those keys. -/
def fkeep (F : FCtx) (ks : List Str) : FCtx := ks.map fun k => (k, (F.get? k).getD (.atom .none))

theorem fkeep_get (F : FCtx) (ks : List Str) (k : Str) :
    (fkeep F ks).get? k = if k ∈ ks then .some ((F.get? k).getD (.atom .none)) else .none := by
  induction ks with
  | nil => rfl
  | cons a ks ih =>
    show Dict.get? ((a, (F.get? a).getD (.atom .none)) :: fkeep F ks) k = _
    by_cases e : a = k
    · subst e; simp [Dict.get?]
    · have e' : ¬ k = a := fun h => e h.symm
      simp only [Dict.get?, if_neg e, ih, List.mem_cons, e', false_or]

theorem fkeep_keys (F : FCtx) (ks : List Str) : (fkeep F ks).keys = ks := by
  induction ks with
  | nil => rfl
  | cons a ks ih => exact congrArg (a :: ·) ih

theorem filtered_later (P : Py) (c : Cls) (h : Heap) (ctx : Nat) (keys : List Str) (hn : keys.Nodup)
    (F : FCtx) (hF : Content h ctx F) :
    ∃ h' F', filtered P c h ctx keys = .ok (h', h.length) ∧ Later h.length h' h.length F' ∧
      h.length ≤ h'.length ∧ (∀ x < h.length, h'[x]? = h[x]?) ∧
      ∀ k, F'.get? k = if k ∈ keys then F.get? k else .none := by
  obtain ⟨e, he, hen, hes⟩ := hF
  have hs : Sound h ctx := by
    rintro k o ⟨e', he', hk⟩
    rw [he] at he'; simp at he'; subst he'
    have := ref_valid hes k o hk
    exact ⟨_, List.getElem?_eq_getElem this⟩
  obtain ⟨h', d, hf, hc⟩ := filtered_copying P c h ctx keys hn hs
  rw [entries_eq he] at hc
  have hlen : h.length < h'.length := lt_of_getElem? _ _ _ hc.here
  have hkeys : ∀ k, (d.get? k).isSome = true ↔ k ∈ keys ∧ (F.get? k).isSome = true := by
    intro k
    have hk : (e.get? k).isSome = (F.get? k).isSome := by
      rw [Bool.eq_iff_iff, Dict.get?_isSome_iff, Dict.get?_isSome_iff, hes.1]
    rw [← hk]
    constructor
    · intro hd
      obtain ⟨v, hv⟩ := Option.isSome_iff_exists.1 hd
      refine ⟨hc.only k v hv, ?_⟩
      cases he' : e.get? k with
      | some w => rfl
      | none => rw [hc.absent k (hc.only k v hv) he'] at hv; simp at hv
    · rintro ⟨h1, h2⟩
      obtain ⟨v, hv⟩ := Option.isSome_iff_exists.1 h2
      obtain ⟨w, hw, _⟩ := hc.present k h1 v hv
      rw [hw]; rfl
  have hval : ∀ k, (fkeep F d.keys).get? k = if k ∈ keys then F.get? k else .none := by
    intro k
    rw [fkeep_get]
    by_cases hd : k ∈ d.keys
    · rw [if_pos hd]
      have := (hkeys k).1 ((Dict.get?_isSome_iff _ _).2 hd)
      rw [if_pos this.1]
      obtain ⟨v, hv⟩ := Option.isSome_iff_exists.1 this.2
      rw [hv]; rfl
    · rw [if_neg hd]
      by_cases hk : k ∈ keys
      · rw [if_pos hk]
        cases hF : F.get? k with
        | none => rfl
        | some v =>
          exact absurd ((Dict.get?_isSome_iff _ _).1 ((hkeys k).2 ⟨hk, by rw [hF]; rfl⟩)) hd
      · rw [if_neg hk]
  refine ⟨h', fkeep F d.keys, hf, ⟨fun a => h.length ≤ a ∧ a < h'.length, d, ?_, fun a ha => ha.1⟩, by omega, ?_, hval⟩
  · refine ⟨hc.here, hc.nodup, ⟨(fkeep_keys _ _).symm, ?_⟩, ⟨Nat.le_refl _, hlen⟩, ?_, hc.sep, fun a ha => ha.2⟩
    · intro k w f hw hf
      rw [hval] at hf
      have hk : k ∈ keys := hc.only k w hw
      rw [if_pos hk] at hf
      cases he' : e.get? k with
      | none => rw [hc.absent k hk he'] at hw; simp at hw
      | some v =>
        obtain ⟨w', h1, h2⟩ := hc.present k hk v he'
        rw [hw] at h1; simp at h1; subst h1
        have hsh := hes.2 k v f he' hf
        cases h2 with
        | atom a => cases f <;> simp_all [Shows]
        | object o o' obj a1 a2 a3 =>
          cases f with
          | atom a => simp [Shows] at hsh
          | _ =>
            obtain ⟨o1, e1, e2⟩ := hsh
            simp at e1; subst e1
            exact ⟨o', rfl, by rw [a2, ← e2, a1]⟩
    · intro k o hk
      have := hc.apart k o hk
      exact ⟨⟨by omega, by omega⟩, by omega⟩
  · intro x hx
    rw [hc.kept x _ (List.getElem?_eq_getElem hx), List.getElem?_eq_getElem hx]

/-- A history of updates. -/
theorem updates_later (P : Py) (c : Cls) (N : Nat) (us : List (FCtx × Bool)) (hus : ∀ u ∈ us, u.1.keys.Nodup)
    (self : Nat) (parent : Option Nat) (initial : Nat) :
    ∀ (h : Heap) (F : FCtx), N ≤ h.length → Later N h self F → ∀ h2,
    runOps P c self parent initial h (us.map fun u => .update u.1 u.2) = .ok h2 → ∀ x < N, h2[x]? = h[x]? := by
  induction us with
  | nil =>
    intro h F _ _ h2 hr x hx
    have : h = h2 := by simpa [runOps, pure, Except.pure] using hr
    rw [this]
  | cons u us ih =>
    intro h F hN hl h2 hr x hx
    have hstep := update_later P c N hN hl u.1 (hus u (by simp)) u.2 parent initial
    rw [runOps, List.map_cons, List.foldlM_cons] at hr
    cases hf : fupdate P c.replace u.2 F u.1 u.1.keys with
    | error e =>
      rw [hf] at hstep
      have hstep : _ = Except.error e := hstep
      rw [hstep] at hr
      cases hr
    | ok F' =>
      rw [hf] at hstep
      obtain ⟨h', e1, l1, n1, f1⟩ := hstep
      rw [e1] at hr
      rw [ih (fun v hv => hus v (by simp [hv])) h' F' (by omega) l1 h2 hr x hx, f1 x hx]

end Verif.Context
