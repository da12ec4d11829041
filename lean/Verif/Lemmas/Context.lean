import Verif.Lemmas.Dict
import Verif.Spec.Context

set_option linter.unusedSimpArgs false
set_option linter.unusedVariables false

namespace Verif.Context

open Verif Verif.Context.Spec

/-! ### Dicts of immutable values -/

def lift (d : Dict Str Atom) : Dict Str Value := d.map fun kv => (kv.1, .atom kv.2)

theorem lift_get (d : Dict Str Atom) (k : Str) : (lift d).get? k = (d.get? k).map .atom := by
  induction d with
  | nil => rfl
  | cons kv d ih =>
    simp only [lift, List.map_cons, Dict.get?] at ih ⊢
    split
    · rfl
    · exact ih

theorem lift_keys (d : Dict Str Atom) : (lift d).keys = d.keys := by
  simp [lift, Dict.keys, List.map_map, Function.comp_def]

theorem lift_set (d : Dict Str Atom) (k : Str) (a : Atom) :
    Dict.set (lift d) k (.atom a) = lift (d.set k a) := by
  induction d with
  | nil => rfl
  | cons kv d ih =>
    simp only [lift, List.map_cons, Dict.set] at ih ⊢
    split
    · simp
    · simp [ih]

theorem set_getElem_self {α : Type} (l : List α) (i : Nat) (x : α) (h : l[i]? = some x) :
    l.set i x = l := by
  apply List.ext_getElem?
  intro j
  rw [List.getElem?_set]
  split
  · rename_i hij
    subst hij
    split
    · exact h.symm
    · rename_i hlt
      rw [List.getElem?_eq_none (by omega)]
  · rfl

theorem lt_of_getElem? {α : Type} (l : List α) (i : Nat) (x : α) (h : l[i]? = some x) : i < l.length := by
  rcases Nat.lt_or_ge i l.length with hlt | hge
  · exact hlt
  · rw [List.getElem?_eq_none hge] at h; simp at h

theorem changeAtom_eq (P : Py) (a : Atom) (v : Value) : changeAtom P a v = mergeAtom P a v := by
  cases a <;> rcases v with (_ | _) | _ <;> simp only [changeAtom, mergeAtom]
  all_goals first
    | rfl
    | (split <;> simp_all)

theorem immutable_eq : immutable = hashable := by funext v; cases v <;> rfl

theorem fresh_eq (l items : List Value) : l ++ fresh l items = setUnion l items := by
  unfold setUnion
  induction items generalizing l with
  | nil => simp [fresh]
  | cons v vs ih =>
    rw [fresh, List.foldl_cons]
    by_cases h : v ∈ l
    · rw [if_pos h, if_pos h, ih]
    · rw [if_neg h, if_neg h, ← ih]; simp

/-- The inner loop on a dict of immutable values. -/
def mergeDictStep (P : Py) (cs : Dict Str Atom) (d : Dict Str Atom) (k : Str) :
    Except Err (Dict Str Atom) :=
  match cs.get? k with
  | none => .ok d
  | some c => match d.get? k with
    | none => .ok (d.set k c)
    | some a => do let a' ← mergeAtom P a (.atom c); .ok (d.set k a')

theorem mergeDict_eq (P : Py) (d cs : Dict Str Atom) :
    mergeDict P d cs = cs.keys.foldlM (mergeDictStep P cs) d := by
  unfold mergeDict
  have : (fun (d : Dict Str Atom) k => match cs.get? k with
      | none => (.ok d : Except Err (Dict Str Atom))
      | some c => match d.get? k with
        | none => .ok (d.set k c)
        | some a => do let a' ← changeAtom P a (.atom c); .ok (d.set k a')) = mergeDictStep P cs := by
    funext d k
    simp only [mergeDictStep, changeAtom_eq]
  rw [← this]
  rfl

theorem inner_step (P : Py) (rec : Heap → Nat → Dict Str Value → Except Err Heap) (cs : Dict Str Atom)
    (o : Nat) (h : Heap) (d : Dict Str Atom) (k : Str) (hd : h[o]? = some (.dict (lift d))) :
    updateKey P rec [] true o (lift cs) h k =
      (mergeDictStep P cs d k).map fun d' => h.set o (.dict (lift d')) := by
  unfold updateKey mergeDictStep
  rw [lift_get]
  cases hc : cs.get? k with
  | none => simp [Except.map, set_getElem_self _ _ _ hd]
  | some c =>
    simp only [Option.map_some, getKey, hd, lift_get]
    cases hk : d.get? k with
    | none => simp [copyVal, setKey, hd, Except.map, lift_set]
    | some a =>
      simp only [Option.map_some, Bool.not_true, Bool.false_eq_true, if_false, List.not_mem_nil]
      cases hm : mergeAtom P a (.atom c) with
      | error e => rfl
      | ok a' => simp [bind, Except.bind, Except.map, setKey, hd, lift_set]

theorem inner_fold (P : Py) (rec : Heap → Nat → Dict Str Value → Except Err Heap) (cs : Dict Str Atom)
    (o : Nat) (keys : List Str) (h : Heap) (d : Dict Str Atom) (hd : h[o]? = some (.dict (lift d))) :
    keys.foldlM (updateKey P rec [] true o (lift cs)) h =
      (keys.foldlM (mergeDictStep P cs) d).map fun d' => h.set o (.dict (lift d')) := by
  induction keys generalizing h d with
  | nil => simp [Except.map, pure, Except.pure, set_getElem_self _ _ _ hd]
  | cons k keys ih =>
    simp only [List.foldlM_cons, inner_step P rec cs o h d k hd]
    cases hs : mergeDictStep P cs d k with
    | error e => rfl
    | ok d1 =>
      simp only [Except.map, bind, Except.bind]
      have hlt := lt_of_getElem? _ _ _ hd
      have := ih (h.set o (.dict (lift d1))) d1 (by simp [List.getElem?_set, hlt])
      simp only [Except.map] at this
      rw [this]
      cases keys.foldlM (mergeDictStep P cs) d1 with
      | error e => rfl
      | ok d2 => simp

theorem mergeAtom_ref (P : Py) (a : Atom) (o o' : Nat) :
    mergeAtom P a (.ref o) = mergeAtom P a (.ref o') := by cases a <;> rfl

/-! ### Ownership -/

/-- The context at `self` with entries `d` has content `F`; its mutable objects are among
those of the predicate `M`, and no two entries share one. -/
structure Own (M : Nat → Prop) (h : Heap) (me : Nat) (d : Dict Str Value) (F : FCtx) : Prop where
  at_self : h[me]? = some (.dict d)
  nodup : d.keys.Nodup
  shows : ShowsAll h d F
  self_mine : M me
  mine : ∀ k o, d.get? k = some (.ref o) → M o ∧ o ≠ me
  inj : ∀ k k' o, d.get? k = some (.ref o) → d.get? k' = some (.ref o) → k = k'
  bound : ∀ a, M a → a < h.length

/-- The changes `ch` have content `G` and hold no object of `M`. -/
structure Chg (M : Nat → Prop) (h : Heap) (ch : Dict Str Value) (G : FCtx) : Prop where
  shows : ShowsAll h ch G
  notMine : ∀ k o, ch.get? k = some (.ref o) → ¬ M o ∧ o < h.length

/-- `M` with the addresses allocated between heaps. -/
def grow (M : Nat → Prop) (h h' : Heap) : Nat → Prop :=
  fun a => M a ∨ (h.length ≤ a ∧ a < h'.length)

/-- Nothing outside of `M` was changed. -/
def Framed (M : Nat → Prop) (h h' : Heap) : Prop :=
  h.length ≤ h'.length ∧ ∀ a, ¬ M a → a < h.length → h'[a]? = h[a]?

theorem Shows.atom_iff (h : Heap) (v : Value) (a : Atom) : Shows h v (.atom a) ↔ v = .atom a := Iff.rfl

theorem shows_ref (h : Heap) (v : Value) (f : FVal) (hs : Shows h v f) :
    (∃ a, f = .atom a ∧ v = .atom a) ∨ (∃ o obj, v = .ref o ∧ f.obj = some obj ∧ h[o]? = some obj) := by
  cases f with
  | atom a => exact .inl ⟨a, rfl, hs⟩
  | list l => obtain ⟨o, rfl, ho⟩ := hs; exact .inr ⟨o, _, rfl, rfl, ho⟩
  | set l => obtain ⟨o, rfl, ho⟩ := hs; exact .inr ⟨o, _, rfl, rfl, ho⟩
  | dict d => obtain ⟨o, rfl, ho⟩ := hs; exact .inr ⟨o, _, rfl, rfl, ho⟩

theorem shows_of_obj (h : Heap) (o : Nat) (f : FVal) (obj : Obj) (hf : f.obj = some obj)
    (ho : h[o]? = some obj) : Shows h (.ref o) f := by
  cases f with
  | atom a => simp [FVal.obj] at hf
  | list l => exact ⟨o, rfl, by rw [hf, ho]⟩
  | set l => exact ⟨o, rfl, by rw [hf, ho]⟩
  | dict d => exact ⟨o, rfl, by rw [hf, ho]⟩

theorem shows_mono (h h' : Heap) (v : Value) (f : FVal) (hs : Shows h v f)
    (he : ∀ o, v = .ref o → h'[o]? = h[o]?) : Shows h' v f := by
  rcases shows_ref h v f hs with ⟨a, rfl, rfl⟩ | ⟨o, obj, rfl, hf, ho⟩
  · rfl
  · exact shows_of_obj _ _ _ _ hf (by rw [he o rfl, ho])

theorem get_isSome_of_keys {α β : Type} (d : Dict Str α) (F : Dict Str β) (hk : d.keys = F.keys) (k : Str) :
    (d.get? k).isSome = (F.get? k).isSome := by
  rw [Bool.eq_iff_iff, Dict.get?_isSome_iff, Dict.get?_isSome_iff, hk]

theorem Chg.mono {M : Nat → Prop} {h h' : Heap} {ch : Dict Str Value} {G : FCtx} (hc : Chg M h ch G)
    (hf : Framed M h h') : Chg (grow M h h') h' ch G where
  shows := ⟨hc.shows.1, fun k v f hv hg => shows_mono h h' v f (hc.shows.2 k v f hv hg) (by
    rintro o rfl
    exact hf.2 o (hc.notMine k o hv).1 (hc.notMine k o hv).2)⟩
  notMine := by
    intro k o ho
    obtain ⟨h1, h2⟩ := hc.notMine k o ho
    refine ⟨?_, by have := hf.1; omega⟩
    rintro (h3 | h3)
    · exact h1 h3
    · omega

theorem Framed.trans {M : Nat → Prop} {h h' h'' : Heap} (h1 : Framed M h h')
    (h2 : Framed (grow M h h') h' h'') : Framed M h h'' := by
  refine ⟨by have := h1.1; have := h2.1; omega, ?_⟩
  intro a ha hlt
  rw [h2.2 a _ (by have := h1.1; omega), h1.2 a ha hlt]
  rintro (h3 | h3)
  · exact ha h3
  · omega

theorem grow_grow {M : Nat → Prop} {h h' h'' : Heap} (h1 : h.length ≤ h'.length)
    (h2 : h'.length ≤ h''.length) : grow (grow M h h') h' h'' = grow M h h'' := by
  funext a
  unfold grow
  apply propext
  constructor
  · rintro ((h3 | h3) | h3)
    · exact .inl h3
    · exact .inr ⟨h3.1, by omega⟩
    · exact .inr ⟨by omega, h3.2⟩
  · rintro (h3 | h3)
    · exact .inl (.inl h3)
    · by_cases h4 : a < h'.length
      · exact .inl (.inr ⟨h3.1, h4⟩)
      · exact .inr ⟨by omega, h3.2⟩

theorem grow_self {M : Nat → Prop} {h h' : Heap} (hl : h.length = h'.length) : grow M h h' = M := by
  funext a
  apply propext
  unfold grow
  constructor
  · rintro (h | h)
    · exact h
    · omega
  · exact .inl

theorem framed_refl (M : Nat → Prop) (h : Heap) : Framed M h h := ⟨Nat.le_refl _, fun _ _ _ => rfl⟩

theorem framed_set {M : Nat → Prop} (h : Heap) (o : Nat) (obj : Obj) (ho : M o) :
    Framed M h (h.set o obj) := by
  refine ⟨by simp, ?_⟩
  intro a ha _
  rw [List.getElem?_set, if_neg]
  rintro rfl
  exact ha ho

/-- Writing an immutable value. -/
theorem Own.setAtom {M : Nat → Prop} {h : Heap} {self : Nat} {d : Dict Str Value} {F : FCtx}
    (ho : Own M h self d F) (k : Str) (a : Atom) :
    Own M (h.set self (.dict (d.set k (.atom a)))) self (d.set k (.atom a)) (Dict.set F k (.atom a)) where
  at_self := by simp [List.getElem?_set, lt_of_getElem? _ _ _ ho.at_self]
  nodup := Dict.keys_set_nodup _ _ _ ho.nodup
  shows := by
    refine ⟨by rw [Dict.keys_set, Dict.keys_set, ho.shows.1], ?_⟩
    intro k' v f hv hf
    rw [Dict.get?_set] at hv hf
    split at hv
    · rename_i e
      rw [if_pos e] at hf
      simp at hv hf
      subst hv hf
      rfl
    · rename_i e
      rw [if_neg e] at hf
      apply shows_mono h _ v f (ho.shows.2 k' v f hv hf)
      rintro o rfl
      have := (ho.mine k' o hv).2
      simp [List.getElem?_set, Ne.symm this]
  self_mine := ho.self_mine
  mine := by
    intro k' o hv
    rw [Dict.get?_set] at hv
    split at hv
    · simp at hv
    · exact ho.mine k' o hv
  inj := by
    intro k1 k2 o h1 h2
    rw [Dict.get?_set] at h1 h2
    split at h1
    · simp at h1
    · split at h2
      · simp at h2
      · exact ho.inj k1 k2 o h1 h2
  bound := by intro a ha; simpa using ho.bound a ha

/-- Adding a new entry with a copied object. -/
theorem Own.addRef {M : Nat → Prop} {h : Heap} {self : Nat} {d : Dict Str Value} {F : FCtx}
    (ho : Own M h self d F) (k : Str) (f : FVal) (obj : Obj) (hf : f.obj = some obj) :
    Own (grow M h (h ++ [obj])) ((h ++ [obj]).set self (.dict (d.set k (.ref h.length)))) self
      (d.set k (.ref h.length)) (Dict.set F k f) := by
  have hlt := lt_of_getElem? _ _ _ ho.at_self
  have other : ∀ o, o < h.length → o ≠ self →
      ((h ++ [obj]).set self (.dict (d.set k (.ref h.length))))[o]? = h[o]? := by
    intro o h1 h2
    rw [List.getElem?_set, if_neg (Ne.symm h2), List.getElem?_append_left h1]
  refine ⟨?_, Dict.keys_set_nodup _ _ _ ho.nodup, ⟨?_, ?_⟩, .inl ho.self_mine, ?_, ?_, ?_⟩
  · rw [List.getElem?_set, if_pos rfl, if_pos]; simp; omega
  · rw [Dict.keys_set, Dict.keys_set, ho.shows.1]
  · intro k' v f' hv hf'
    rw [Dict.get?_set] at hv hf'
    split at hv
    · rename_i e
      rw [if_pos e] at hf'
      simp at hv hf'
      subst hv hf'
      apply shows_of_obj _ _ _ _ hf
      rw [List.getElem?_set, if_neg (by omega)]
      simp
    · rename_i e
      rw [if_neg e] at hf'
      apply shows_mono h _ v f' (ho.shows.2 k' v f' hv hf')
      rintro o rfl
      have := ho.mine k' o hv
      exact other o (ho.bound o this.1) this.2
  · intro k' o hv
    rw [Dict.get?_set] at hv
    split at hv
    · simp at hv; subst hv
      exact ⟨.inr (by simp), by omega⟩
    · exact ⟨.inl (ho.mine k' o hv).1, (ho.mine k' o hv).2⟩
  · intro k1 k2 o h1 h2
    rw [Dict.get?_set] at h1 h2
    split at h1
    · rename_i e1
      simp at h1; subst h1
      split at h2
      · rename_i e2; rw [← e1, e2]
      · have := ho.bound _ (ho.mine _ _ h2).1; omega
    · split at h2
      · simp at h2; subst h2
        have := ho.bound _ (ho.mine _ _ h1).1; omega
      · exact ho.inj k1 k2 o h1 h2
  · rintro a (h1 | h1)
    · have := ho.bound a h1; simp; omega
    · simp at h1 ⊢; omega

/-- Changing the object of an entry in place. -/
theorem Own.setObj {M : Nat → Prop} {h : Heap} {self : Nat} {d : Dict Str Value} {F : FCtx}
    (ho : Own M h self d F) (k : Str) (o : Nat) (hk : d.get? k = some (.ref o)) (f : FVal) (obj : Obj)
    (hf : f.obj = some obj) : Own M (h.set o obj) self d (Dict.set F k f) where
  at_self := by
    have := (ho.mine k o hk).2
    simp [List.getElem?_set, this, ho.at_self]
  nodup := ho.nodup
  shows := by
    constructor
    · rw [Dict.keys_set, ← ho.shows.1, if_pos]
      rw [← Dict.get?_isSome_iff, hk]; rfl
    · intro k' v f' hv hf'
      rw [Dict.get?_set] at hf'
      split at hf'
      · rename_i e
        subst e
        rw [hk] at hv
        simp at hv hf'
        subst hv hf'
        apply shows_of_obj _ _ _ _ hf
        simp [List.getElem?_set, ho.bound _ (ho.mine k o hk).1]
      · rename_i e
        apply shows_mono h _ v f' (ho.shows.2 k' v f' hv hf')
        rintro o' rfl
        have : o ≠ o' := by
          rintro rfl
          exact e (ho.inj k k' o hk hv)
        simp [List.getElem?_set, this]
  self_mine := ho.self_mine
  mine := ho.mine
  inj := ho.inj
  bound := by intro a ha; simpa using ho.bound a ha

theorem toList_eq (P : Py) (h : Heap) (v : Value) (f : FVal) (hs : Shows h v f) :
    toList P h v = f.toList P := by
  cases f with
  | atom a => rw [(Shows.atom_iff h v a).1 hs]; cases a <;> rfl
  | list l => obtain ⟨o, rfl, ho⟩ := hs; simp [toList, ho, FVal.obj, FVal.toList]
  | set l => obtain ⟨o, rfl, ho⟩ := hs; simp [toList, ho, FVal.obj, FVal.toList]
  | dict d =>
    obtain ⟨o, rfl, ho⟩ := hs
    simp [toList, ho, FVal.obj, FVal.toList, Dict.keys, List.map_map, Function.comp_def]

theorem toDict_eq (P : Py) (h : Heap) (v : Value) (f : FVal) (hs : Shows h v f) :
    toDict P h v = (f.toDict P).map lift := by
  cases f with
  | atom a =>
    rw [(Shows.atom_iff h v a).1 hs]
    cases a <;> simp [toDict, FVal.toDict, Except.map, lift, List.map_map, Function.comp_def]
  | list l => obtain ⟨o, rfl, ho⟩ := hs; simp [toDict, ho, FVal.obj, FVal.toDict, Except.map]
  | set l => obtain ⟨o, rfl, ho⟩ := hs; simp [toDict, ho, FVal.obj, FVal.toDict, Except.map]
  | dict d => obtain ⟨o, rfl, ho⟩ := hs; simp [toDict, ho, FVal.obj, FVal.toDict, Except.map, lift]

/-- How a step on the heap relates to a step by value. -/
def Refines (M : Nat → Prop) (h : Heap) (self : Nat) (r : Except Err Heap) (f : Except Err FCtx) : Prop :=
  match f with
  | .error e => r = .error e
  | .ok F' => ∃ h' d', r = .ok h' ∧ Own (grow M h h') h' self d' F' ∧ Framed M h h'

theorem refines_same {M : Nat → Prop} {h h' : Heap} {self : Nat} {d : Dict Str Value} {F : FCtx}
    (hl : h.length = h'.length) (ho : Own M h' self d F) (hf : Framed M h h') :
    Refines M h self (.ok h') (.ok F) :=
  ⟨h', d, rfl, by rw [grow_self hl]; exact ho, hf⟩

theorem updateKey_refines (P : Py) (left : Nat) (replace : List Str) (overwrite : Bool)
    {M : Nat → Prop} {h : Heap} {self : Nat} {d : Dict Str Value} {F : FCtx} {ch : Dict Str Value} {G : FCtx}
    (ho : Own M h self d F) (hc : Chg M h ch G) (k : Str) :
    Refines M h self
      (updateKey P (fun h o d => matchUpdate P (left + 1) [] true h o d d.keys) replace overwrite self ch h k)
      (fupdateKey P replace overwrite G F k) := by
  have hcg := get_isSome_of_keys ch G hc.shows.1 k
  have hdf := get_isSome_of_keys d F ho.shows.1 k
  unfold updateKey fupdateKey
  cases hg : G.get? k with
  | none =>
    rw [hg] at hcg
    cases hv : ch.get? k with
    | some v => simp [hv] at hcg
    | none => exact refines_same rfl ho (framed_refl _ _)
  | some c =>
    rw [hg] at hcg
    cases hv : ch.get? k with
    | none => simp [hv] at hcg
    | some v =>
      have hs := hc.shows.2 k v c hv hg
      simp only [getKey, ho.at_self]
      cases hf : F.get? k with
      | none =>
        rw [hf] at hdf
        cases hw : d.get? k with
        | some w => simp [hw] at hdf
        | none =>
          rcases shows_ref h v c hs with ⟨a, rfl, rfl⟩ | ⟨o, obj, rfl, hobj, hho⟩
          · simp only [copyVal, setKey, ho.at_self]
            exact refines_same (by simp) (ho.setAtom k a) (framed_set _ _ _ ho.self_mine)
          · have hlt := lt_of_getElem? _ _ _ ho.at_self
            simp only [copyVal, hho, setKey, List.getElem?_append_left hlt, ho.at_self]
            refine ⟨_, d.set k (.ref h.length), rfl, ?_, ?_, ?_⟩
            · have := ho.addRef k c obj hobj
              have hg : grow M h ((h ++ [obj]).set self (.dict (d.set k (.ref h.length)))) =
                  grow M h (h ++ [obj]) := by funext a; simp [grow]
              rw [hg]; exact this
            · simp
            · intro a ha hal
              rw [List.getElem?_set, if_neg (by rintro rfl; exact ha ho.self_mine),
                List.getElem?_append_left hal]
      | some f =>
        rw [hf] at hdf
        cases hw : d.get? k with
        | none => simp [hw] at hdf
        | some w =>
          cases overwrite with
          | false => exact refines_same rfl ho (framed_refl _ _)
          | true =>
            simp only [Bool.not_true, Bool.false_eq_true, if_false]
            have hsw := ho.shows.2 k w f hw hf
            rcases shows_ref h w f hsw with ⟨a, rfl, rfl⟩ | ⟨o, obj, rfl, hobj, hho⟩
            · have hclear : (if k ∈ replace then clear h (.atom a) else h) = h := by
                split <;> rfl
              simp only [hclear, merge, changeAtom_eq, immutable_eq, fresh_eq]
              have hm : mergeAtom P a v = mergeAtom P a c.asValue := by
                rcases shows_ref h v c hs with ⟨a', rfl, rfl⟩ | ⟨o, obj, rfl, hobj, hho⟩
                · rfl
                · cases c with
                  | atom _ => simp [FVal.obj] at hobj
                  | list _ => exact mergeAtom_ref _ _ _ _
                  | set _ => exact mergeAtom_ref _ _ _ _
                  | dict _ => exact mergeAtom_ref _ _ _ _
              rw [hm]
              cases mergeAtom P a c.asValue with
              | error e => rfl
              | ok a' =>
                simp only [bind, Except.bind, setKey, ho.at_self]
                exact refines_same (by simp) (ho.setAtom k a') (framed_set _ _ _ ho.self_mine)
            · have hmo := (ho.mine k o hw).1
              have hlt := ho.bound o hmo
              -- the heap after `clear`
              have key : ∀ (obj0 : Obj) (f0 : FVal), f0.obj = some obj0 →
                  (if k ∈ replace then clear h (.ref o) else h) = h.set o obj0 →
                  Own M (h.set o obj0) self d (Dict.set F k f0) ∧ Shows (h.set o obj0) v c ∧
                  (h.set o obj0)[o]? = some obj0 ∧ Framed M h (h.set o obj0) := by
                intro obj0 f0 h0 _
                refine ⟨ho.setObj k o hw f0 obj0 h0, ?_, by simp [List.getElem?_set, hlt], framed_set _ _ _ hmo⟩
                apply shows_mono h _ v c hs
                rintro o' rfl
                have : o ≠ o' := by rintro rfl; exact (hc.notMine k o hv).1 hmo
                simp [List.getElem?_set, this]
              cases f with
              | atom a => simp [FVal.obj] at hobj
              | list l =>
                simp [FVal.obj] at hobj; subst hobj
                have hcl : (if k ∈ replace then clear h (.ref o) else h) =
                    h.set o (.list (if k ∈ replace then [] else l)) := by
                  split
                  · simp [clear, hho]
                  · exact (set_getElem_self _ _ _ hho).symm
                obtain ⟨h1, h2, h3, h4⟩ := key _ (.list (if k ∈ replace then [] else l)) rfl hcl
                rw [hcl]
                simp only [h3, merge, changeAtom_eq, immutable_eq, fresh_eq, toList_eq P _ v c h2]
                cases c.toList P with
                | error e => rfl
                | ok items =>
                  simp only [bind, Except.bind, List.set_set, decide_eq_true_eq]
                  have := ho.setObj k o hw (.list (items ++ if k ∈ replace then [] else l)) _ rfl
                  exact refines_same (by simp) this (framed_set _ _ _ hmo)
              | set l =>
                simp [FVal.obj] at hobj; subst hobj
                have hcl : (if k ∈ replace then clear h (.ref o) else h) =
                    h.set o (.set (if k ∈ replace then [] else l)) := by
                  split
                  · simp [clear, hho]
                  · exact (set_getElem_self _ _ _ hho).symm
                obtain ⟨h1, h2, h3, h4⟩ := key _ (.set (if k ∈ replace then [] else l)) rfl hcl
                rw [hcl]
                simp only [h3, merge, changeAtom_eq, immutable_eq, fresh_eq, toList_eq P _ v c h2]
                cases c.toList P with
                | error e => rfl
                | ok items =>
                  simp only [bind, Except.bind, List.set_set, decide_eq_true_eq]
                  by_cases hh : items.all hashable = true
                  · simp only [hh, if_true]
                    have := ho.setObj k o hw (.set (setUnion (if k ∈ replace then [] else l) items)) _ rfl
                    exact refines_same (by simp) this (framed_set _ _ _ hmo)
                  · simp only [hh, if_false]
                    rfl
              | dict l =>
                simp [FVal.obj] at hobj; subst hobj
                have hcl : (if k ∈ replace then clear h (.ref o) else h) =
                    h.set o (.dict (lift (if k ∈ replace then [] else l))) := by
                  split
                  · simp [clear, hho, lift]
                  · exact (set_getElem_self _ _ _ hho).symm
                obtain ⟨h1, h2, h3, h4⟩ := key (.dict (lift (if k ∈ replace then [] else l))) (.dict (if k ∈ replace then [] else l)) rfl hcl
                rw [hcl]
                simp only [h3, merge, changeAtom_eq, immutable_eq, fresh_eq, toDict_eq P _ v c h2]
                cases hcd : c.toDict P with
                | error e => rfl
                | ok cs =>
                  simp only [bind, Except.bind, Except.map, decide_eq_true_eq, matchUpdate]
                  rw [inner_fold P _ cs o _ _ _ h3, lift_keys, mergeDict_eq]
                  cases cs.keys.foldlM (mergeDictStep P cs) (if k ∈ replace then [] else l) with
                  | error e => rfl
                  | ok d' =>
                    simp only [Except.map, List.set_set]
                    have := ho.setObj k o hw (.dict d') _ rfl
                    exact refines_same (by simp) this (framed_set _ _ _ hmo)

theorem matchUpdate_refines (P : Py) (left : Nat) (replace : List Str) (overwrite : Bool)
    (keys : List Str) {M : Nat → Prop} {h : Heap} {self : Nat} {d : Dict Str Value} {F : FCtx}
    {ch : Dict Str Value} {G : FCtx} (ho : Own M h self d F) (hc : Chg M h ch G) :
    Refines M h self (matchUpdate P (left + 2) replace overwrite h self ch keys)
      (fupdate P replace overwrite F G keys) := by
  simp only [matchUpdate, fupdate]
  induction keys generalizing M h d F with
  | nil => exact refines_same rfl ho (framed_refl _ _)
  | cons k keys ih =>
    simp only [List.foldlM_cons]
    have h1 := updateKey_refines P left replace overwrite ho hc k
    simp only [matchUpdate] at h1
    cases hf : fupdateKey P replace overwrite G F k with
    | error e =>
      rw [hf] at h1
      have h1 : _ = Except.error e := h1
      rw [h1]; rfl
    | ok F1 =>
      rw [hf] at h1
      obtain ⟨h', d', e1, o1, f1⟩ := h1
      rw [e1]
      simp only [bind, Except.bind]
      have h2 := ih o1 (hc.mono f1)
      cases hf2 : List.foldlM (fupdateKey P replace overwrite G) F1 keys with
      | error e => rw [hf2] at h2; exact h2
      | ok F2 =>
        rw [hf2] at h2
        obtain ⟨h'', d'', e2, o2, f2⟩ := h2
        refine ⟨h'', d'', e2, ?_, f1.trans f2⟩
        rw [grow_grow f1.1 f2.1] at o2
        exact o2


/-! ### From contents to ownership -/

theorem ref_valid {h : Heap} {d : Dict Str Value} {F : FCtx} (hs : ShowsAll h d F) (k : Str) (o : Nat)
    (hk : d.get? k = some (.ref o)) : o < h.length := by
  have := get_isSome_of_keys d F hs.1 k
  rw [hk] at this
  cases hf : F.get? k with
  | none => simp [hf] at this
  | some f =>
    rcases shows_ref h _ f (hs.2 k _ f hk hf) with ⟨a, _, h'⟩ | ⟨o', obj, h', _, h2⟩
    · simp at h'
    · simp at h'; subst h'; exact lt_of_getElem? _ _ _ h2

theorem holds_iff {h : Heap} {a : Nat} {k : Str} {v : Value} : Holds h a k v ↔ getKey h a k = some v := by
  unfold Holds getKey
  constructor
  · rintro ⟨d, h1, h2⟩
    rw [h1]; exact h2
  · intro e
    split at e
    · next d hd => exact ⟨d, hd, e⟩
    · cases e

/-- The objects of the context at `a`. -/
def objects (h : Heap) (a : Nat) : Nat → Prop := fun o => o = a ∨ ∃ k, getKey h a k = some (.ref o)

theorem own_of_content {h : Heap} {a : Nat} {d : Dict Str Value} {F : FCtx}
    (hd : h[a]? = some (.dict d)) (hn : d.keys.Nodup) (hs : ShowsAll h d F) (hsep : Separate h a) :
    Own (objects h a) h a d F where
  at_self := hd
  nodup := hn
  shows := hs
  self_mine := .inl rfl
  mine := by
    intro k o hk
    have : getKey h a k = some (.ref o) := by simp [getKey, hd, hk]
    exact ⟨.inr ⟨k, this⟩, by rintro rfl; exact hsep.1 k (holds_iff.2 this)⟩
  inj := by
    intro k k' o hk hk'
    exact hsep.2 k k' o ⟨d, hd, hk⟩ ⟨d, hd, hk'⟩
  bound := by
    rintro o (rfl | ⟨k, hk⟩)
    · exact lt_of_getElem? _ _ _ hd
    · simp [getKey, hd] at hk
      exact ref_valid hs k o hk

theorem Own.separate {M : Nat → Prop} {h : Heap} {a : Nat} {d : Dict Str Value} {F : FCtx}
    (ho : Own M h a d F) : Separate h a := by
  have e : ∀ k, getKey h a k = d.get? k := by intro k; simp [getKey, ho.at_self]
  refine ⟨fun k hk => ?_, fun k k' o hk hk' => ?_⟩
  · rw [holds_iff, e] at hk; exact (ho.mine k a hk).2 rfl
  · rw [holds_iff, e] at hk hk'; exact ho.inj k k' o hk hk'

theorem Own.content {M : Nat → Prop} {h : Heap} {a : Nat} {d : Dict Str Value} {F : FCtx}
    (ho : Own M h a d F) : Content h a F := ⟨d, ho.at_self, ho.nodup, ho.shows⟩

theorem chg_of_disjoint {h : Heap} {a b : Nat} {d ch : Dict Str Value} {G : FCtx}
    (hd : h[a]? = some (.dict d)) (hb : h[b]? = some (.dict ch)) (hs : ShowsAll h ch G)
    (hdis : Disjoint h a b) : Chg (objects h a) h ch G where
  shows := hs
  notMine := by
    intro k o hk
    have hk' : getKey h b k = some (.ref o) := by simp [getKey, hb, hk]
    refine ⟨?_, ref_valid hs k o hk⟩
    rintro (rfl | ⟨k', hk''⟩)
    · exact (hdis k k o ⟨ch, hb, hk⟩).1 rfl
    · exact (hdis k k' o ⟨ch, hb, hk⟩).2 (holds_iff.2 hk'')

theorem entries_eq {h : Heap} {a : Nat} {d : Dict Str Value} (hd : h[a]? = some (.dict d)) :
    entries h a = d := by simp [entries, hd]

theorem get?_filter {α : Type} (p : Str → Bool) (d : Dict Str α) (k : Str) :
    Dict.get? (d.filter fun kv => p kv.1) k = if p k then d.get? k else none := by
  induction d with
  | nil => simp
  | cons kv d ih =>
    rw [List.filter_cons]
    by_cases hp : p kv.1 = true
    · simp only [hp, if_true, Dict.get?]
      by_cases hk : kv.1 = k
      · subst hk; simp [hp]
      · simp only [hk, if_false]; exact ih
    · simp only [hp, Bool.false_eq_true, if_false, Dict.get?]
      by_cases hk : kv.1 = k
      · subst hk; rw [ih]; simp [hp]
      · simp only [hk, if_false]; exact ih

theorem keys_filter {α : Type} (p : Str → Bool) (d : Dict Str α) :
    Dict.keys (d.filter fun kv => p kv.1) = d.keys.filter p := by
  simp [Dict.keys, List.filter_map, Function.comp_def]

theorem Own.remove {M : Nat → Prop} {h : Heap} {self : Nat} {d : Dict Str Value} {F : FCtx}
    (ho : Own M h self d F) (p : Str → Bool) :
    Own M (h.set self (.dict (d.filter fun kv => p kv.1))) self (d.filter fun kv => p kv.1)
      (F.filter fun kv => p kv.1) where
  at_self := by simp [List.getElem?_set, lt_of_getElem? _ _ _ ho.at_self]
  nodup := by rw [keys_filter]; exact ho.nodup.filter p
  shows := by
    refine ⟨by rw [keys_filter, keys_filter, ho.shows.1], ?_⟩
    intro k v f hv hf
    rw [get?_filter] at hv hf
    split at hv
    · rename_i hp
      rw [if_pos hp] at hf
      apply shows_mono h _ v f (ho.shows.2 k v f hv hf)
      rintro o rfl
      have := (ho.mine k o hv).2
      simp [List.getElem?_set, Ne.symm this]
    · simp at hv
  self_mine := ho.self_mine
  mine := by
    intro k o hv
    rw [get?_filter] at hv
    split at hv
    · exact ho.mine k o hv
    · simp at hv
  inj := by
    intro k k' o h1 h2
    rw [get?_filter] at h1 h2
    split at h1
    · split at h2
      · exact ho.inj k k' o h1 h2
      · simp at h2
    · simp at h1
  bound := by intro a ha; simpa using ho.bound a ha

/-- Reset on the heap and by value. -/
theorem reset_refines (P : Py) (c : Cls) {M : Nat → Prop} {h : Heap} {self : Nat}
    {d : Dict Str Value} {F : FCtx} (ho : Own M h self d F)
    (parent : Option Nat) (Fp : Option FCtx)
    (hp : match parent, Fp with
      | none, none => True
      | some p, some G => ∃ ch, h[p]? = some (.dict ch) ∧ Chg M h ch G ∧ ¬ M p
      | _, _ => False)
    (initial : Nat) (Fi : FCtx) (ich : Dict Str Value)
    (hi : h[initial]? = some (.dict ich)) (hic : Chg M h ich Fi) (him : ¬ M initial) :
    Refines M h self (reset P c h self parent initial) (freset P c F Fp Fi) := by
  have hrm : removeEntries c h self = h.set self (.dict (d.filter fun kv => kv.1 ∈ c.exclude)) := by
    simp [removeEntries, ho.at_self]
  have o1 := ho.remove (fun k => decide (k ∈ c.exclude))
  have f1 : Framed M h (h.set self (.dict (d.filter fun kv => decide (kv.1 ∈ c.exclude)))) :=
    framed_set _ _ _ ho.self_mine
  have hl1 : h.length = (h.set self (.dict (d.filter fun kv => decide (kv.1 ∈ c.exclude)))).length := by simp
  have mid : ∀ (h1 : Heap) (d1 : Dict Str Value) (F1 : FCtx), Own (grow M h h1) h1 self d1 F1 → Framed M h h1 →
      Refines M h self (update P c.replace true h1 self initial) (fupdate P c.replace true F1 Fi Fi.keys) := by
    intro h1 d1 F1 ho1 hf1
    have hi1 : h1[initial]? = some (.dict ich) := by
      rw [hf1.2 initial him (lt_of_getElem? _ _ _ hi), hi]
    have := matchUpdate_refines P 3 c.replace true ich.keys ho1 (hic.mono hf1)
    rw [hic.shows.1] at this
    unfold update
    rw [entries_eq hi1, hic.shows.1]
    show Refines M h self (matchUpdate P (3 + 2) _ _ _ _ _ _) _
    cases hfu : fupdate P c.replace true F1 Fi Fi.keys with
    | error e => rw [hfu] at this; exact this
    | ok F2 =>
      rw [hfu] at this
      obtain ⟨h2, d2, e2, o2, f2⟩ := this
      refine ⟨h2, d2, e2, ?_, hf1.trans f2⟩
      rw [grow_grow hf1.1 f2.1] at o2
      exact o2
  unfold reset freset
  rw [hrm]
  cases parent with
  | none =>
    cases Fp with
    | some _ => exact hp.elim
    | none =>
      simp only [bind, Except.bind, pure, Except.pure]
      exact mid _ _ _ (by rw [grow_self hl1]; exact o1) f1
  | some p =>
    cases Fp with
    | none => exact hp.elim
    | some G =>
      obtain ⟨ch, hch, hcc, hpm⟩ := hp
      have hp1 : (h.set self (.dict (d.filter fun kv => decide (kv.1 ∈ c.exclude))))[p]? = some (.dict ch) := by
        rw [f1.2 p hpm (lt_of_getElem? _ _ _ hch), hch]
      have hcm : Chg M (h.set self (.dict (d.filter fun kv => decide (kv.1 ∈ c.exclude)))) ch G := by
        have := hcc.mono f1
        rwa [grow_self hl1] at this
      have := matchUpdate_refines P 3 c.replace true (G.keys.filter (· ∉ c.doNotInherit)) o1 hcm
      simp only [entries_eq hp1, bind, Except.bind, hcc.shows.1]
      cases hfu : fupdate P c.replace true (F.filter fun kv => decide (kv.1 ∈ c.exclude)) G
          (G.keys.filter (· ∉ c.doNotInherit)) with
      | error e =>
        rw [hfu] at this
        have this : matchUpdate P maxLeft _ _ _ _ _ _ = _ := this
        rw [this]; rfl
      | ok F1 =>
        rw [hfu] at this
        obtain ⟨h1, d1, e1, o2, f2⟩ := this
        have e1 : matchUpdate P maxLeft _ _ _ _ _ _ = _ := e1
        rw [e1]
        have hl : grow M (h.set self (.dict (d.filter fun kv => decide (kv.1 ∈ c.exclude)))) h1 = grow M h h1 := by
          funext a; simp [grow]
        rw [hl] at o2
        have f2' : Framed M h h1 := by
          have h3 := f1.trans (h'' := h1) (by rw [grow_self hl1]; exact f2)
          exact h3
        exact mid h1 d1 F1 o2 f2'

/-! ### Making a dict -/

theorem build_shows (h : Heap) (G : FCtx) (hn : G.keys.Nodup) (h' : Heap) (d : Dict Str Value)
    (hb : build h G = (h', d)) :
    (∃ t, h' = h ++ t) ∧ ShowsAll h' d G ∧ ∀ k o, d.get? k = some (.ref o) → h.length ≤ o := by
  induction G generalizing h h' d with
  | nil =>
    simp [build] at hb
    obtain ⟨rfl, rfl⟩ := hb
    exact ⟨⟨[], by simp⟩, ⟨rfl, by simp⟩, by simp⟩
  | cons kf G ih =>
    obtain ⟨k, f⟩ := kf
    simp at hn
    have ref : ∀ obj, f.obj = some obj →
        (let (h', d) := build (h ++ [obj]) G; (h', (k, Value.ref h.length) :: d)) = (h', d) →
        (∃ t, h' = h ++ t) ∧ ShowsAll h' d ((k, f) :: G) ∧ ∀ k o, d.get? k = some (.ref o) → h.length ≤ o := by
      intro obj hobj hb
      simp only [Prod.mk.injEq] at hb
      obtain ⟨e1, e2⟩ := hb
      obtain ⟨⟨t, ht⟩, hs, hr⟩ := ih (h ++ [obj]) hn.2 _ _ rfl
      rw [e1] at ht hs
      subst e2
      refine ⟨⟨obj :: t, by simp [ht]⟩, ⟨by simp [hs.1], ?_⟩, ?_⟩
      · intro k' v f' hv hf'
        simp only [Dict.get?] at hv hf'
        split at hv
        · rename_i e
          rw [if_pos e] at hf'
          simp at hv hf'
          subst hv hf'
          exact shows_of_obj _ _ _ _ hobj (by simp [ht])
        · rename_i e
          rw [if_neg e] at hf'
          exact hs.2 k' v f' hv hf'
      · intro k' o hv
        simp only [Dict.get?] at hv
        split at hv
        · simp at hv; omega
        · have := hr k' o hv
          simp at this; omega
    cases f with
    | atom a =>
      simp only [build, Prod.mk.injEq] at hb
      obtain ⟨e1, e2⟩ := hb
      obtain ⟨⟨t, ht⟩, hs, hr⟩ := ih h hn.2 _ _ rfl
      rw [e1] at ht hs
      subst e2
      refine ⟨⟨t, ht⟩, ⟨by simp [hs.1], ?_⟩, ?_⟩
      · intro k' v f' hv hf'
        simp only [Dict.get?] at hv hf'
        split at hv
        · rename_i e
          rw [if_pos e] at hf'
          simp at hv hf'
          subst hv hf'
          rfl
        · rename_i e
          rw [if_neg e] at hf'
          exact hs.2 k' v f' hv hf'
      · intro k' o hv
        simp only [Dict.get?] at hv
        split at hv
        · simp at hv
        · exact hr k' o hv
    | list l => exact ref _ rfl hb
    | set l => exact ref _ rfl hb
    | dict l => exact ref _ rfl hb

/-! ### Updates by value, key by key -/

/-- What an update does to one key. -/
def stepVal (P : Py) (replace : List Str) (overwrite : Bool) (k : Str) (old change : Option FVal) :
    Except Err (Option FVal) :=
  match change with
  | none => .ok old
  | some c => match old with
    | none => .ok (some c)
    | some o => if !overwrite then .ok (some o)
      else (merge P (decide (k ∈ replace)) o c).map some

theorem fupdateKey_spec (P : Py) (replace : List Str) (overwrite : Bool) (G F : FCtx) (k : Str) :
    match stepVal P replace overwrite k (F.get? k) (G.get? k) with
    | .error e => fupdateKey P replace overwrite G F k = .error e
    | .ok r => ∃ F', fupdateKey P replace overwrite G F k = .ok F' ∧ F'.get? k = r ∧
        ∀ k', k' ≠ k → F'.get? k' = F.get? k' := by
  unfold stepVal fupdateKey
  cases hg : G.get? k with
  | none => exact ⟨F, rfl, rfl, fun _ _ => rfl⟩
  | some c =>
    cases hf : F.get? k with
    | none => exact ⟨_, rfl, by simp [Dict.get?_set], fun k' hk' => by simp [Dict.get?_set, Ne.symm hk']⟩
    | some o =>
      cases overwrite with
      | false => exact ⟨F, rfl, hf, fun _ _ => rfl⟩
      | true =>
        simp only [Bool.not_true, Bool.false_eq_true, if_false]
        cases merge P (decide (k ∈ replace)) o c with
        | error e => rfl
        | ok v =>
          exact ⟨_, rfl, by simp [Dict.get?_set], fun k' hk' => by simp [Dict.get?_set, Ne.symm hk']⟩

theorem fupdate_ok_iff (P : Py) (replace : List Str) (overwrite : Bool) (G : FCtx) (keys : List Str)
    (hn : keys.Nodup) (F : FCtx) :
    (∃ F', fupdate P replace overwrite F G keys = .ok F') ↔
      ∀ k ∈ keys, ∃ r, stepVal P replace overwrite k (F.get? k) (G.get? k) = .ok r := by
  unfold fupdate
  induction keys generalizing F with
  | nil => simp [pure, Except.pure]
  | cons k keys ih =>
    simp at hn
    simp only [List.foldlM_cons]
    have hk := fupdateKey_spec P replace overwrite G F k
    cases hs : stepVal P replace overwrite k (F.get? k) (G.get? k) with
    | error e =>
      rw [hs] at hk
      have hk : _ = Except.error e := hk
      rw [hk]
      simp [bind, Except.bind]
      intro x hx
      rw [hs] at hx; simp at hx
    | ok r =>
      rw [hs] at hk
      obtain ⟨F1, e1, _, h1⟩ := hk
      rw [e1]
      simp only [bind, Except.bind]
      rw [ih hn.2 F1]
      constructor
      · intro h x hx
        simp at hx
        rcases hx with rfl | hx
        · exact ⟨r, hs⟩
        · have := h x hx
          rwa [h1 x (by rintro rfl; exact hn.1 hx)] at this
      · intro h x hx
        rw [h1 x (by rintro rfl; exact hn.1 hx)]
        exact h x (by simp [hx])

theorem fupdate_get (P : Py) (replace : List Str) (overwrite : Bool) (G : FCtx) (keys : List Str)
    (hn : keys.Nodup) (F F' : FCtx) (h : fupdate P replace overwrite F G keys = .ok F') (k : Str) :
    (k ∈ keys → stepVal P replace overwrite k (F.get? k) (G.get? k) = .ok (F'.get? k)) ∧
    (k ∉ keys → F'.get? k = F.get? k) := by
  unfold fupdate at h
  induction keys generalizing F with
  | nil => simp [pure, Except.pure] at h; subst h; simp
  | cons x keys ih =>
    simp at hn
    simp only [List.foldlM_cons] at h
    have hk := fupdateKey_spec P replace overwrite G F x
    cases hs : stepVal P replace overwrite x (F.get? x) (G.get? x) with
    | error e =>
      rw [hs] at hk
      have hk : _ = Except.error e := hk
      rw [hk] at h
      simp [bind, Except.bind] at h
    | ok r =>
      rw [hs] at hk
      obtain ⟨F1, e1, e2, h1⟩ := hk
      rw [e1] at h
      simp only [bind, Except.bind] at h
      obtain ⟨i1, i2⟩ := ih hn.2 F1 h
      constructor
      · intro hkm
        simp at hkm
        by_cases hkx : k = x
        · subst hkx
          rw [hs, i2 hn.1, e2]
        · rw [← h1 k hkx]
          exact i1 (by rcases hkm with h | h; exact absurd h hkx; exact h)
      · intro hkm
        simp at hkm
        rw [i2 hkm.2, h1 k hkm.1]

theorem mergeAtom_kind (P : Py) (a : Atom) (v : Value) (a' : Atom) (h : mergeAtom P a v = .ok a') :
    kindAtom a' = kindAtom a := by
  cases a <;> simp only [mergeAtom] at h <;> repeat' (split at h)
  all_goals first | (simp at h; done) | skip
  all_goals (simp at h; subst h; first | rfl | (simp [kindAtom]; done) | skip)
  all_goals simp_all [kindAtom]

theorem merge_kind (P : Py) (r : Bool) (o c v : FVal) (h : merge P r o c = .ok v) : v.kind = o.kind := by
  cases o with
  | atom a =>
    simp only [merge, changeAtom_eq, immutable_eq, fresh_eq, bind, Except.bind] at h
    split at h
    · simp at h
    · rename_i a' ha
      simp at h; subst h
      exact mergeAtom_kind P a _ a' ha
  | list l =>
    simp only [merge, changeAtom_eq, immutable_eq, fresh_eq, bind, Except.bind] at h
    split at h
    · simp at h
    · simp at h; subst h; rfl
  | set l =>
    simp only [merge, changeAtom_eq, immutable_eq, fresh_eq, bind, Except.bind] at h
    split at h
    · simp at h
    · split at h
      · simp at h; subst h; rfl
      · simp at h
  | dict d =>
    simp only [merge, changeAtom_eq, immutable_eq, fresh_eq, bind, Except.bind] at h
    split at h
    · simp at h
    · split at h
      · simp at h
      · simp at h; subst h; rfl


/-! ### Kinds, at any nesting -/

/-- The same object, or an immutable value of the same kind. -/
def SameKind (v v' : Value) : Prop :=
  v' = v ∨ ∃ a a', v = .atom a ∧ v' = .atom a' ∧ kindAtom a' = kindAtom a

theorem SameKind.trans {a b c : Value} (h : SameKind a b) (h' : SameKind b c) : SameKind a c := by
  rcases h with rfl | ⟨x, y, rfl, rfl, e⟩
  · exact h'
  · rcases h' with rfl | ⟨x', y', h1, rfl, e'⟩
    · exact .inr ⟨x, y, rfl, rfl, e⟩
    · simp at h1; subst h1
      exact .inr ⟨x, y', rfl, rfl, by rw [e', e]⟩

/-- All objects keep their kind, and the dicts in `S` keep their keys with values of the
same kind. -/
def Evolves (S : Nat → Prop) (h h' : Heap) : Prop :=
  ∀ a obj, h[a]? = some obj → ∃ obj', h'[a]? = some obj' ∧ kindObj obj' = kindObj obj ∧
    (S a → ∀ d, obj = .dict d → ∃ d', obj' = .dict d' ∧
      ∀ k v, d.get? k = some v → ∃ v', d'.get? k = some v' ∧ SameKind v v')

theorem Evolves.refl (S : Nat → Prop) (h : Heap) : Evolves S h h :=
  fun a obj ho => ⟨obj, ho, rfl, fun _ d hd => ⟨d, hd, fun k v hv => ⟨v, hv, .inl rfl⟩⟩⟩

theorem Evolves.trans {S : Nat → Prop} {h h' h'' : Heap} (h1 : Evolves S h h') (h2 : Evolves S h' h'') :
    Evolves S h h'' := by
  intro a obj ho
  obtain ⟨o1, e1, k1, d1⟩ := h1 a obj ho
  obtain ⟨o2, e2, k2, d2⟩ := h2 a o1 e1
  refine ⟨o2, e2, by rw [k2, k1], ?_⟩
  intro hs d hd
  obtain ⟨d', hd', g1⟩ := d1 hs d hd
  obtain ⟨d'', hd'', g2⟩ := d2 hs d' hd'
  refine ⟨d'', hd'', ?_⟩
  intro k v hv
  obtain ⟨v', hv', s1⟩ := g1 k v hv
  obtain ⟨v'', hv'', s2⟩ := g2 k v' hv'
  exact ⟨v'', hv'', s1.trans s2⟩

theorem Evolves.mono {S S' : Nat → Prop} {h h' : Heap} (hs : ∀ a, S a → S' a) (h1 : Evolves S' h h') :
    Evolves S h h' := by
  intro a obj ho
  obtain ⟨o1, e1, k1, d1⟩ := h1 a obj ho
  exact ⟨o1, e1, k1, fun hsa => d1 (hs a hsa)⟩

theorem evolves_set (S : Nat → Prop) (h : Heap) (o : Nat) (obj obj' : Obj) (ho : h[o]? = some obj)
    (hk : kindObj obj' = kindObj obj)
    (hd : S o → ∀ d, obj = .dict d → ∃ d', obj' = .dict d' ∧
      ∀ k v, d.get? k = some v → ∃ v', d'.get? k = some v' ∧ SameKind v v') :
    Evolves S h (h.set o obj') := by
  intro a x hx
  by_cases hao : o = a
  · subst hao
    rw [ho] at hx; simp at hx; subst hx
    exact ⟨obj', by simp [List.getElem?_set, lt_of_getElem? _ _ _ ho], hk, hd⟩
  · exact ⟨x, by simp [List.getElem?_set, hao, hx], rfl,
      fun _ d hd => ⟨d, hd, fun k v hv => ⟨v, hv, .inl rfl⟩⟩⟩

theorem evolves_append (S : Nat → Prop) (h : Heap) (t : List Obj) : Evolves S h (h ++ t) := by
  intro a x hx
  exact ⟨x, by rw [List.getElem?_append_left (lt_of_getElem? _ _ _ hx), hx], rfl,
    fun _ d hd => ⟨d, hd, fun k v hv => ⟨v, hv, .inl rfl⟩⟩⟩

theorem evolves_setKey (S : Nat → Prop) (h t : Heap) (self : Nat) (k : Str) (v : Value)
    (hv : ∀ w, getKey h self k = some w → SameKind w v) : Evolves S h (setKey (h ++ t) self k v) := by
  intro a x hx
  have hlt := lt_of_getElem? _ _ _ hx
  have hx' : (h ++ t)[a]? = some x := by rw [List.getElem?_append_left hlt, hx]
  unfold setKey
  split
  · rename_i d hd
    by_cases has : self = a
    · subst has
      rw [hx'] at hd; simp at hd; subst hd
      refine ⟨.dict (d.set k v), by simp [List.getElem?_set]; omega, rfl, ?_⟩
      intro _ d0 hd0
      simp at hd0; subst hd0
      refine ⟨_, rfl, ?_⟩
      intro k' w hw
      rw [Dict.get?_set]
      split
      · rename_i e
        subst e
        exact ⟨v, rfl, hv w (by simp [getKey, hx, hw])⟩
      · exact ⟨w, hw, .inl rfl⟩
    · exact ⟨x, by rw [List.getElem?_set, if_neg has, hx'], rfl,
        fun _ d hd => ⟨d, hd, fun k v hv => ⟨v, hv, .inl rfl⟩⟩⟩
  · exact ⟨x, hx', rfl, fun _ d hd => ⟨d, hd, fun k v hv => ⟨v, hv, .inl rfl⟩⟩⟩

theorem evolves_clear (S : Nat → Prop) (h : Heap) (w : Value) (hs : ∀ o, w = .ref o → ¬ S o) :
    Evolves S h (clear h w) := by
  unfold clear
  split
  · exact Evolves.refl _ _
  · rename_i o
    have hn := hs o rfl
    split
    · rename_i l hl; exact evolves_set _ _ _ _ _ hl rfl (fun h => absurd h hn)
    · rename_i l hl; exact evolves_set _ _ _ _ _ hl rfl (fun h => absurd h hn)
    · rename_i l hl; exact evolves_set _ _ _ _ _ hl rfl (fun h => absurd h hn)
    · exact Evolves.refl _ _

theorem updateKey_evolves (P : Py) (rec : Heap → Nat → Dict Str Value → Except Err Heap)
    (S : Nat → Prop) (hrec : ∀ h o d h', rec h o d = .ok h' → Evolves S h h')
    (replace : List Str) (overwrite : Bool) (self : Nat) (ch : Dict Str Value) (h : Heap) (k : Str)
    (hrep : k ∈ replace → ∀ o, getKey h self k = some (.ref o) → ¬ S o)
    (h' : Heap) (hu : updateKey P rec replace overwrite self ch h k = .ok h') : Evolves S h h' := by
  unfold updateKey at hu
  split at hu
  · simp at hu; subst hu; exact Evolves.refl _ _
  · rename_i c hc
    split at hu
    · rename_i hn
      simp at hu; subst hu
      have hcp : (∃ t, (copyVal h c).1 = h ++ t) := by
        unfold copyVal
        split
        · exact ⟨[], by simp⟩
        · split
          · exact ⟨_, rfl⟩
          · exact ⟨[], by simp⟩
      obtain ⟨t, ht⟩ := hcp
      rw [ht]
      apply evolves_setKey
      intro w hw
      rw [hn] at hw; simp at hw
    · rename_i w hw
      split at hu
      · simp at hu; subst hu; exact Evolves.refl _ _
      · have hclear : Evolves S h (if k ∈ replace then clear h w else h) := by
          split
          · rename_i hk
            apply evolves_clear
            rintro o rfl
            exact hrep hk o hw
          · exact Evolves.refl _ _
        apply hclear.trans
        have hgk : ∀ a, w = .atom a → getKey (if k ∈ replace then clear h w else h) self k = some w := by
          rintro a rfl
          have : (if k ∈ replace then clear h (.atom a) else h) = h := by split <;> rfl
          rw [this, hw]
        simp only at hu
        generalize (if k ∈ replace then clear h w else h) = h1 at hu hgk
        cases w with
        | atom a =>
          simp only [bind, Except.bind] at hu
          split at hu
          · simp at hu
          · rename_i a' ha
            simp at hu; subst hu
            have := evolves_setKey S h1 [] self k (.atom a') (by
              intro w hw
              rw [hgk a rfl] at hw; simp at hw; subst hw
              exact .inr ⟨a, a', rfl, rfl, mergeAtom_kind P a _ a' ha⟩)
            simpa using this
        | ref o =>
          simp only at hu
          split at hu
          · rename_i l hl
            simp only [bind, Except.bind] at hu
            split at hu
            · simp at hu
            · simp at hu; subst hu
              exact evolves_set _ _ _ _ _ hl rfl (by intro _ d hd; simp at hd)
          · rename_i l hl
            simp only [bind, Except.bind] at hu
            split at hu
            · simp at hu
            · split at hu
              · simp at hu; subst hu
                exact evolves_set _ _ _ _ _ hl rfl (by intro _ d hd; simp at hd)
              · simp at hu
          · simp only [bind, Except.bind] at hu
            split at hu
            · simp at hu
            · exact hrec _ _ _ _ hu
          · simp at hu; subst hu; exact Evolves.refl _ _

theorem foldlM_evolves (S : Nat → Prop) (step : Heap → Str → Except Err Heap) (I : Heap → Prop)
    (hstep : ∀ h k h', I h → step h k = .ok h' → Evolves S h h' ∧ I h') (keys : List Str) (h h' : Heap)
    (hI : I h) (hf : keys.foldlM step h = .ok h') : Evolves S h h' := by
  induction keys generalizing h with
  | nil => simp [pure, Except.pure] at hf; subst hf; exact Evolves.refl _ _
  | cons k keys ih =>
    simp only [List.foldlM_cons, bind, Except.bind] at hf
    split at hf
    · simp at hf
    · rename_i h1 h1e
      obtain ⟨e1, i1⟩ := hstep h k h1 hI h1e
      exact e1.trans (ih h1 i1 hf)

theorem matchUpdate_evolves_all (P : Py) (left : Nat) (overwrite : Bool) (h : Heap) (self : Nat)
    (ch : Dict Str Value) (keys : List Str) (h' : Heap)
    (hu : matchUpdate P left [] overwrite h self ch keys = .ok h') : Evolves (fun _ => True) h h' := by
  induction left generalizing overwrite h self ch keys h' with
  | zero => simp [matchUpdate] at hu
  | succ left ih =>
    simp only [matchUpdate] at hu
    apply foldlM_evolves _ _ (fun _ => True) _ keys h h' trivial hu
    intro h1 k h2 _ h12
    refine ⟨?_, trivial⟩
    apply updateKey_evolves P _ _ _ [] overwrite self ch h1 k (by simp) h2 h12
    intro h o d h' hr
    exact ih true h o d d.keys h' hr

theorem matchUpdate_evolves_kind (P : Py) (left : Nat) (replace : List Str) (overwrite : Bool) (h : Heap)
    (self : Nat) (ch : Dict Str Value) (keys : List Str) (h' : Heap)
    (hu : matchUpdate P left replace overwrite h self ch keys = .ok h') : Evolves (fun _ => False) h h' := by
  cases left with
  | zero => simp [matchUpdate] at hu
  | succ left =>
    simp only [matchUpdate] at hu
    apply foldlM_evolves _ _ (fun _ => True) _ keys h h' trivial hu
    intro h1 k h2 _ h12
    refine ⟨?_, trivial⟩
    apply updateKey_evolves P _ _ _ replace overwrite self ch h1 k (by simp) h2 h12
    intro h o d h' hr
    exact (matchUpdate_evolves_all P left true h o d d.keys h' hr).mono (fun _ h => h.elim)

/-! ### Histories -/

/-- The context owns its objects, all of which were made after the first `N`. -/
def Later (N : Nat) (h : Heap) (self : Nat) (F : FCtx) : Prop :=
  ∃ M d, Own M h self d F ∧ ∀ a, M a → N ≤ a

/-- The dict at `a`, with content `G`, and its objects are among the first `N`. -/
def Early (N : Nat) (h : Heap) (a : Nat) (G : FCtx) : Prop :=
  ∃ ch, h[a]? = some (.dict ch) ∧ ShowsAll h ch G ∧ a < N ∧ ∀ k o, ch.get? k = some (.ref o) → o < N

theorem early_of_content {h : Heap} {a : Nat} {G : FCtx} (hc : Content h a G) : Early h.length h a G := by
  obtain ⟨ch, h1, _, h3⟩ := hc
  exact ⟨ch, h1, h3, lt_of_getElem? _ _ _ h1, fun k o ho => ref_valid h3 k o ho⟩

theorem Early.mono {N : Nat} {h h' : Heap} {a : Nat} {G : FCtx} (he : Early N h a G)
    (hf : ∀ x < N, h'[x]? = h[x]?) : Early N h' a G := by
  obtain ⟨ch, h1, h2, h3, h4⟩ := he
  refine ⟨ch, by rw [hf a h3, h1], ⟨h2.1, ?_⟩, h3, h4⟩
  intro k v f hv hf'
  apply shows_mono h _ v f (h2.2 k v f hv hf')
  rintro o rfl
  exact hf o (h4 k o hv)

theorem Early.content {N : Nat} {h : Heap} {a : Nat} {G : FCtx} (he : Early N h a G) (hn : G.keys.Nodup) :
    Content h a G := by
  obtain ⟨ch, h1, h2, _, _⟩ := he
  exact ⟨ch, h1, by rw [h2.1]; exact hn, h2⟩

/-- Parents (if any) and initial values that existed first. -/
structure Sources (N : Nat) (h : Heap) (parent : Option Nat) (Fp : Option FCtx) (initial : Nat)
    (Fi : FCtx) : Prop where
  le : N ≤ h.length
  parent : match parent, Fp with
    | none, none => True
    | some p, some G => Early N h p G
    | _, _ => False
  initial : Early N h initial Fi

theorem Sources.mono {N : Nat} {h h' : Heap} {parent : Option Nat} {Fp : Option FCtx} {initial : Nat}
    {Fi : FCtx} (hs : Sources N h parent Fp initial Fi) (hl : h.length ≤ h'.length)
    (hf : ∀ x < N, h'[x]? = h[x]?) : Sources N h' parent Fp initial Fi where
  le := by have := hs.le; omega
  parent := by
    have := hs.parent
    cases parent <;> cases Fp <;> first | exact this | exact this.mono hf
  initial := hs.initial.mono hf

theorem reset_later (P : Py) (c : Cls) (N : Nat) {h : Heap} {self : Nat} {F : FCtx}
    {parent : Option Nat} {Fp : Option FCtx} {initial : Nat} {Fi : FCtx}
    (hs : Sources N h parent Fp initial Fi) (hl : Later N h self F) :
    match freset P c F Fp Fi with
    | .error e => reset P c h self parent initial = .error e
    | .ok F' => ∃ h', reset P c h self parent initial = .ok h' ∧ Later N h' self F' ∧
        h.length ≤ h'.length ∧ ∀ x < N, h'[x]? = h[x]? := by
  obtain ⟨M, d, ho, hM⟩ := hl
  have chg : ∀ (ch : Dict Str Value) (G : FCtx), ShowsAll h ch G →
      (∀ k o, ch.get? k = some (.ref o) → o < N) → Chg M h ch G := by
    intro ch G h1 h2
    refine ⟨h1, fun k o hk => ⟨?_, ref_valid h1 k o hk⟩⟩
    intro hm
    have := hM o hm
    have := h2 k o hk
    omega
  obtain ⟨ich, i1, i2, i3, i4⟩ := hs.initial
  have := reset_refines P c ho parent Fp (by
      have := hs.parent
      cases parent <;> cases Fp
      · trivial
      · exact this
      · exact this
      · obtain ⟨ch, h1, h2, h3, h4⟩ := this
        exact ⟨ch, h1, chg ch _ h2 h4, fun hm => by have := hM _ hm; omega⟩) initial Fi ich i1 (chg ich Fi i2 i4)
    (fun hm => by have := hM _ hm; omega)
  cases hfr : freset P c F Fp Fi with
  | error e => rw [hfr] at this; exact this
  | ok F' =>
    rw [hfr] at this
    obtain ⟨h', d', e, o, f⟩ := this
    refine ⟨h', e, ⟨_, d', o, ?_⟩, f.1, ?_⟩
    · rintro a (ha | ha)
      · exact hM a ha
      · have := hs.le; omega
    · intro x hx
      exact f.2 x (fun hm => by have := hM x hm; omega) (by have := hs.le; omega)

theorem update_later (P : Py) (c : Cls) (N : Nat) {h : Heap} {self : Nat} {F : FCtx}
    (hN : N ≤ h.length) (hl : Later N h self F) (G : FCtx) (hG : G.keys.Nodup) (overwrite : Bool)
    (parent : Option Nat) (initial : Nat) :
    match fupdate P c.replace overwrite F G G.keys with
    | .error e => runOp P c self parent initial h (.update G overwrite) = .error e
    | .ok F' => ∃ h', runOp P c self parent initial h (.update G overwrite) = .ok h' ∧ Later N h' self F' ∧
        h.length ≤ h'.length ∧ ∀ x < N, h'[x]? = h[x]? := by
  obtain ⟨M, d, ho, hM⟩ := hl
  rcases hb : build h G with ⟨h1, ch⟩
  obtain ⟨⟨t, ht⟩, hs, hr⟩ := build_shows h G hG h1 ch hb
  -- the heap with the new dict
  have hpre : ∀ a, a < h.length → (h1 ++ [Obj.dict ch])[a]? = h[a]? := by
    intro a ha
    rw [ht, List.append_assoc, List.getElem?_append_left ha]
  have o1 : Own M (h1 ++ [.dict ch]) self d F := by
    refine ⟨by rw [hpre _ (ho.bound _ ho.self_mine), ho.at_self], ho.nodup, ⟨ho.shows.1, ?_⟩, ho.self_mine,
      ho.mine, ho.inj, ?_⟩
    · intro k v f hv hf
      apply shows_mono h _ v f (ho.shows.2 k v f hv hf)
      rintro o rfl
      exact hpre o (ho.bound o (ho.mine k o hv).1)
    · intro a ha
      have := ho.bound a ha
      simp [ht]; omega
  have hsh : ShowsAll (h1 ++ [.dict ch]) ch G := by
    refine ⟨hs.1, ?_⟩
    intro k v f hv hf
    apply shows_mono h1 _ v f (hs.2 k v f hv hf)
    rintro o rfl
    exact List.getElem?_append_left (ref_valid hs k o hv)
  have hc : Chg M (h1 ++ [.dict ch]) ch G := by
    refine ⟨hsh, fun k o hk => ⟨?_, ref_valid hsh k o hk⟩⟩
    intro hm
    have := ho.bound o hm
    have := hr k o hk
    omega
  have := matchUpdate_refines P 3 c.replace overwrite G.keys o1 hc
  have hrun : runOp P c self parent initial h (.update G overwrite) =
      matchUpdate P (3 + 2) c.replace overwrite (h1 ++ [.dict ch]) self ch G.keys := by
    simp only [runOp, hb, update]
    have : (h1 ++ [Obj.dict ch])[h1.length]? = some (.dict ch) := by simp
    rw [entries_eq this, hs.1]
    rfl
  rw [hrun]
  cases hfu : fupdate P c.replace overwrite F G G.keys with
  | error e => rw [hfu] at this; exact this
  | ok F' =>
    rw [hfu] at this
    obtain ⟨h', d', e, o, f⟩ := this
    have hlen : h.length ≤ (h1 ++ [Obj.dict ch]).length := by simp [ht, Nat.add_assoc]
    refine ⟨h', e, ⟨_, d', o, ?_⟩, by have := f.1; omega, ?_⟩
    · rintro a (ha | ha)
      · exact hM a ha
      · omega
    · intro x hx
      rw [f.2 x (fun hm => by have := hM x hm; omega) (by omega), hpre x (by omega)]

/-- A history by value. -/
def frunOp (P : Py) (c : Cls) (Fp : Option FCtx) (Fi : FCtx) (F : FCtx) : Op → Except Err FCtx
  | .update G overwrite => fupdate P c.replace overwrite F G G.keys
  | .reset => freset P c F Fp Fi

/-- The dicts of a history have no repeated keys. -/
def OpsOk (ops : List Op) : Prop := ∀ G ow, Op.update G ow ∈ ops → G.keys.Nodup

theorem runOps_later (P : Py) (c : Cls) (N : Nat) (ops : List Op) (hops : OpsOk ops) {h : Heap}
    {self : Nat} {F : FCtx} {parent : Option Nat} {Fp : Option FCtx} {initial : Nat} {Fi : FCtx}
    (hs : Sources N h parent Fp initial Fi) (hl : Later N h self F) :
    match ops.foldlM (frunOp P c Fp Fi) F with
    | .error e => runOps P c self parent initial h ops = .error e
    | .ok F' => ∃ h', runOps P c self parent initial h ops = .ok h' ∧ Later N h' self F' ∧
        Sources N h' parent Fp initial Fi ∧ ∀ x < N, h'[x]? = h[x]? := by
  unfold runOps
  induction ops generalizing h F with
  | nil => exact ⟨h, rfl, hl, hs, fun _ _ => rfl⟩
  | cons op ops ih =>
    simp only [List.foldlM_cons]
    have step : match frunOp P c Fp Fi F op with
        | .error e => runOp P c self parent initial h op = .error e
        | .ok F' => ∃ h', runOp P c self parent initial h op = .ok h' ∧ Later N h' self F' ∧
            h.length ≤ h'.length ∧ ∀ x < N, h'[x]? = h[x]? := by
      cases op with
      | update G ow => exact update_later P c N hs.le hl G (hops G ow (by simp)) ow parent initial
      | reset => exact reset_later P c N hs hl
    cases hf : frunOp P c Fp Fi F op with
    | error e =>
      rw [hf] at step
      have step : _ = Except.error e := step
      rw [step]; rfl
    | ok F1 =>
      rw [hf] at step
      obtain ⟨h1, e1, l1, len1, f1⟩ := step
      rw [e1]
      simp only [bind, Except.bind]
      have := ih (fun G ow hm => hops G ow (by simp [hm])) (hs.mono len1 f1) l1
      cases hf2 : ops.foldlM (frunOp P c Fp Fi) F1 with
      | error e => rw [hf2] at this; exact this
      | ok F2 =>
        rw [hf2] at this
        obtain ⟨h2, e2, l2, s2, f2⟩ := this
        exact ⟨h2, e2, l2, s2, fun x hx => by rw [f2 x hx, f1 x hx]⟩

/-- The creation of a context by value. -/
theorem create_later (P : Py) (c : Cls) (h : Heap) (parent : Option Nat) (Fp : Option FCtx) (initial : Nat)
    (Fi : FCtx) (hs : Sources h.length h parent Fp initial Fi) :
    match freset P c [] Fp Fi with
    | .error e => create P c h parent initial = .error e
    | .ok F' => ∃ h', create P c h parent initial = .ok (h', h.length) ∧ Later h.length h' h.length F' ∧
        Sources h.length h' parent Fp initial Fi ∧ ∀ x < h.length, h'[x]? = h[x]? := by
  have hpre : ∀ x < h.length, (h ++ [Obj.dict []])[x]? = h[x]? :=
    fun x hx => List.getElem?_append_left hx
  have hl : Later h.length (h ++ [.dict []]) h.length [] := by
    refine ⟨fun a => a = h.length, [], ⟨by simp, by simp, ⟨rfl, by simp⟩, rfl, by simp, by simp, ?_⟩, ?_⟩
    · rintro a rfl; simp
    · rintro a rfl; exact Nat.le_refl _
  have hs1 := hs.mono (h' := h ++ [.dict []]) (by simp) hpre
  have := reset_later P c h.length hs1 hl
  unfold create
  cases hfr : freset P c [] Fp Fi with
  | error e =>
    rw [hfr] at this
    have this : _ = Except.error e := this
    rw [this]; rfl
  | ok F' =>
    rw [hfr] at this
    obtain ⟨h', e, l, len, f⟩ := this
    rw [e]
    exact ⟨h', rfl, l, hs1.mono len f, fun x hx => by rw [f x hx, hpre x hx]⟩

/-! ### Reset by value -/

theorem freset_ok (P : Py) (c : Cls) (F : FCtx) (Fp : Option FCtx) (Fi : FCtx)
    (F' : FCtx) (h : freset P c F Fp Fi = .ok F') :
    ∃ F1, (match Fp with
      | none => F1 = F.filter (fun kv => decide (kv.1 ∈ c.exclude))
      | some p => fupdate P c.replace true (F.filter fun kv => decide (kv.1 ∈ c.exclude)) p
          (p.keys.filter (· ∉ c.doNotInherit)) = .ok F1) ∧
      fupdate P c.replace true F1 Fi Fi.keys = .ok F' := by
  unfold freset at h
  cases Fp with
  | none =>
    simp only [bind, Except.bind, pure, Except.pure] at h
    exact ⟨_, rfl, h⟩
  | some p =>
    simp only [bind, Except.bind, pure, Except.pure] at h
    split at h
    · simp at h
    · rename_i F1 h1
      exact ⟨F1, h1, h⟩

/-- What a reset gives for a key, as a function of what was there. -/
def resetVal (P : Py) (c : Cls) (Fp : Option FCtx) (Fi : FCtx) (k : Str) (old : Option FVal) :
    Except Err (Option FVal) := do
  let old := if k ∈ c.exclude then old else none
  let old ← match Fp with
    | none => pure old
    | some p => if k ∈ p.keys ∧ k ∉ c.doNotInherit then stepVal P c.replace true k old (p.get? k) else pure old
  if k ∈ Fi.keys then stepVal P c.replace true k old (Fi.get? k) else pure old

theorem freset_get (P : Py) (c : Cls) (F : FCtx) (Fp : Option FCtx) (Fi : FCtx)
    (hp : ∀ p, Fp = some p → p.keys.Nodup) (hi : Fi.keys.Nodup)
    (F' : FCtx) (h : freset P c F Fp Fi = .ok F') (k : Str) :
    resetVal P c Fp Fi k (F.get? k) = .ok (F'.get? k) := by
  obtain ⟨F1, h1, h2⟩ := freset_ok P c F Fp Fi F' h
  have g2 := fupdate_get P c.replace true Fi Fi.keys hi F1 F' h2 k
  have hF : Dict.get? (F.filter fun kv => decide (kv.1 ∈ c.exclude)) k =
      if k ∈ c.exclude then F.get? k else none := by
    have := get?_filter (fun x => decide (x ∈ c.exclude)) F k
    simpa using this
  have fin : ∀ old, Dict.get? F1 k = old →
      (if k ∈ Fi.keys then stepVal P c.replace true k old (Fi.get? k) else (pure old : Except Err _)) =
        .ok (F'.get? k) := by
    rintro old rfl
    split
    · rename_i hk; exact g2.1 hk
    · rename_i hk; rw [g2.2 hk]; rfl
  unfold resetVal
  cases Fp with
  | none =>
    subst h1
    simp only [bind, Except.bind, pure, Except.pure]
    exact fin _ hF
  | some p =>
    have hn : (p.keys.filter (· ∉ c.doNotInherit)).Nodup := (hp p rfl).filter _
    have g1 := fupdate_get P c.replace true p _ hn _ F1 h1 k
    rw [hF] at g1
    simp only [List.mem_filter, decide_eq_true_eq] at g1
    simp only [bind, Except.bind]
    by_cases hk : k ∈ p.keys ∧ k ∉ c.doNotInherit
    · rw [if_pos hk, g1.1 hk]
      exact fin _ rfl
    · rw [if_neg hk]
      exact fin _ (g1.2 hk)

theorem freset_ok_iff (P : Py) (c : Cls) (F : FCtx) (Fp : Option FCtx) (Fi : FCtx)
    (hp : ∀ p, Fp = some p → p.keys.Nodup) (hi : Fi.keys.Nodup) :
    (∃ F', freset P c F Fp Fi = .ok F') ↔ ∀ k, ∃ r, resetVal P c Fp Fi k (F.get? k) = .ok r := by
  constructor
  · rintro ⟨F', h⟩ k
    exact ⟨_, freset_get P c F Fp Fi hp hi F' h k⟩
  · intro h
    have hF : ∀ k, Dict.get? (F.filter fun kv => decide (kv.1 ∈ c.exclude)) k =
        if k ∈ c.exclude then F.get? k else none := by
      intro k
      have := get?_filter (fun x => decide (x ∈ c.exclude)) F k
      simpa using this
    unfold freset
    cases Fp with
    | none =>
      simp only [bind, Except.bind, pure, Except.pure]
      rw [fupdate_ok_iff _ _ _ _ _ hi]
      intro k hk
      obtain ⟨r, hr⟩ := h k
      simp only [resetVal, bind, Except.bind, pure, Except.pure, hk, if_true] at hr
      exact ⟨r, by rw [hF]; exact hr⟩
    | some p =>
      have hn : (p.keys.filter (· ∉ c.doNotInherit)).Nodup := (hp p rfl).filter _
      have : ∃ F1, fupdate P c.replace true (F.filter fun kv => decide (kv.1 ∈ c.exclude)) p
          (p.keys.filter (· ∉ c.doNotInherit)) = .ok F1 := by
        rw [fupdate_ok_iff _ _ _ _ _ hn]
        intro k hk
        simp only [List.mem_filter, decide_eq_true_eq] at hk
        obtain ⟨r, hr⟩ := h k
        simp only [resetVal, bind, Except.bind, if_pos hk] at hr
        rw [hF]
        cases hs : stepVal P c.replace true k (if k ∈ c.exclude then F.get? k else none) (p.get? k) with
        | error e => rw [hs] at hr; simp at hr
        | ok r => exact ⟨r, rfl⟩
      obtain ⟨F1, h1⟩ := this
      simp only [bind, Except.bind, h1]
      rw [fupdate_ok_iff _ _ _ _ _ hi]
      intro k hk
      obtain ⟨r, hr⟩ := h k
      have g1 := fupdate_get P c.replace true p _ hn _ F1 h1 k
      rw [hF] at g1
      simp only [List.mem_filter, decide_eq_true_eq] at g1
      simp only [resetVal, bind, Except.bind] at hr
      by_cases hkp : k ∈ p.keys ∧ k ∉ c.doNotInherit
      · rw [if_pos hkp, g1.1 hkp] at hr
        simp only [hk, if_true] at hr
        exact ⟨r, hr⟩
      · rw [if_neg hkp] at hr
        simp only [hk, if_true, pure, Except.pure] at hr
        rw [g1.2 hkp]
        exact ⟨r, hr⟩

end Verif.Context
