import Verif.Spec.Formats
import Verif.Lemmas.Attributes
import Verif.Props.Attributes

/-!
# Lemmas about the formats
-/

namespace Verif.Formats

open Verif Verif.Attrs Verif.Attrs.Spec

theorem get?_map {α β : Type} (t : Dict Str α) (f : α → β) (k : Str) :
    Dict.get? (t.map fun e => (e.1, f e.2)) k = (Dict.get? t k).map f := by
  induction t with
  | nil => rfl
  | cons e t ih =>
    obtain ⟨k', a⟩ := e
    simp only [List.map_cons, Dict.get?]
    split
    · rfl
    · exact ih

/-- Filtering for names, in the order asked for. -/
theorem filter_names (targets : Targets) (hg : GoodTargets targets) (d : ADict) (target : Option Str)
    (hT : ∀ T, target = some T → stripDots T ∈ targets) (names : List Str) (hn : names.Nodup)
    (hs : ∀ n ∈ names, ¬ Suffixed targets n) :
    Attrs.filter targets d (some (names.map .name)) target true =
      names.filterMap fun n => (valueOf d target n).map fun v => (n, v) := by
  have hu : Lists.uniq id (names.map Query.name) = names.map Query.name := by
    rw [uniq_map_name, uniq_of_nodup names hn]
  cases target with
  | some T =>
    have := filter_plain_aux targets hg d (stripDots T) (hT T rfl) names hn hs
    simp only [Attrs.filter, Option.getD_some, hu, Option.map_some, if_true, valueOf]
    exact this
  | none =>
    have hs' : ∀ n ∈ names, isTargetSpecific targets n = false :=
      fun n h => (isTargetSpecific_false_iff _ hg n).2 (hs n h)
    simp only [Attrs.filter, Option.getD_some, hu, Option.map_none, if_true, valueOf, removeAttrs_plain _ _ _ hs']
    have e0 : (names.map Query.name).filter (fun x => decide (x ∉ ([] : List Query))) = names.map Query.name := by
      simp
    rw [e0, List.filterMap_map]
    have e1 : ((fun q => findItem targets d q none) ∘ Query.name) = fun n => (d.get? n).map fun v => (n, v) := by
      funext n
      simp only [Function.comp, findItem_name_none]
    rw [e1]
    have hkeys : ∀ kv ∈ names.filterMap (fun n => (d.get? n).map fun v => (n, v)), kv.1 ∈ names := by
      intro kv hkv
      obtain ⟨n, hn', h⟩ := List.mem_filterMap.1 hkv
      cases hv : d.get? n with
      | none => simp [hv] at h
      | some v => simp [hv] at h; rw [← h]; exact hn'
    have hid : ∀ kv ∈ names.filterMap (fun n => (d.get? n).map fun v => (n, v)), stripAttr targets kv.1 = kv.1 :=
      fun kv hkv => stripAttr_not_suffixed _ _ (hs _ (hkeys kv hkv))
    have hnd : (Dict.keys (names.filterMap (fun n => (d.get? n).map fun v => (n, v)))).Nodup := by
      clear e0 e1 hkeys hid hs hs' hu hT
      induction names with
      | nil => simp [Dict.keys]
      | cons n names ih =>
        simp only [List.nodup_cons] at hn
        rw [List.filterMap_cons]
        cases hv : d.get? n with
        | none => simpa [hv] using ih hn.2
        | some v =>
          simp only [Option.map_some, Dict.keys_cons, List.nodup_cons]
          refine ⟨?_, ih hn.2⟩
          intro hm
          simp only [Dict.keys, List.mem_map, List.mem_filterMap] at hm
          obtain ⟨⟨a, b⟩, ⟨m, hm1, hm2⟩, rfl⟩ := hm
          cases hw : d.get? m with
          | none => simp [hw] at hm2
          | some w => simp [hw] at hm2; rw [hm2.1] at hm1; exact hn.1 hm1
    rw [update_nil_of_nodup _ hnd, strip_of_nodup _ hg]
    · conv => rhs; rw [← List.map_id (names.filterMap _)]
      apply List.map_congr_left
      intro kv h
      simp [hid kv h]
    · rw [List.map_congr_left (g := Prod.fst) hid]
      exact hnd
    · intro kv hkv
      rw [hid kv hkv]
      exact hs _ (hkeys kv hkv)

/-- An item found for a class is an entry of that class. -/
theorem findItem_pos_mem (targets : Targets) (d : ADict) (pt : PType) (target : Option Str) (kv : Str × AVal)
    (h : findItem targets d (.pos pt) target = some kv) : kv ∈ d ∧ ∃ t, kv.2 = .pos t ∧ t.isSub pt = true := by
  have key : kv ∈ d.filter (fun kv => match kv.2 with | .pos t => t.isSub pt | .str _ => false) := by
    unfold findItem at h
    simp only at h
    generalize (d.filter fun kv => match kv.2 with | .pos t => t.isSub pt | .str _ => false) = l at *
    split at h
    · rename_i kv' rest heq
      simp only [Option.some.injEq] at h
      subst h
      split at heq
      · exact List.filter_sublist.subset (by rw [heq]; simp)
      · exact List.filter_sublist.subset (by rw [heq]; simp)
    · exact List.mem_of_mem_head? h
  rw [List.mem_filter] at key
  refine ⟨key.1, ?_⟩
  have h2 := key.2
  split at h2
  · rename_i t ht; exact ⟨t, ht, h2⟩
  · simp at h2

/-- Filtering for classes of positional values. -/
theorem filter_pos (targets : Targets) (hg : GoodTargets targets) (posType : Str → PType) (d : ADict)
    (hd : Loaded targets posType d) (T : Str) (types : List PType) (hn : types.Nodup) (ha : PType.any ∉ types) :
    Attrs.filter targets d (some (types.map .pos)) (some T) true =
      types.filterMap fun t => (findItem targets d (.pos t) (some (stripDots T))).map fun kv => (stripAttr targets kv.1, kv.2) := by
  have hu : Lists.uniq id (types.map Query.pos) = types.map Query.pos := by
    apply uniq_of_nodup
    clear ha
    induction types with
    | nil => simp
    | cons t types ih =>
      simp only [List.nodup_cons] at hn
      simp only [List.map_cons, List.nodup_cons]
      refine ⟨?_, ih hn.2⟩
      intro hm
      obtain ⟨x, hx, he⟩ := List.mem_map.1 hm
      simp only [Query.pos.injEq] at he
      subst he
      exact hn.1 hx
  have hr : ∀ T', removeAttrs targets (types.map Query.pos) (some T') = [] := by
    intro T'
    simp [removeAttrs]
  simp only [Attrs.filter, Option.getD_some, hu, Option.map_some, if_true, hr]
  have e0 : (types.map Query.pos).filter (fun x => decide (x ∉ ([] : List Query))) = types.map Query.pos := by simp
  rw [e0, List.filterMap_map]
  have hspec : ∀ t ∈ types, ∀ kv, findItem targets d (.pos t) (some (stripDots T)) = some kv →
      kv ∈ d ∧ posType (stripAttr targets kv.1) = t := by
    intro t ht kv hkv
    obtain ⟨hm, t', ht', hs⟩ := findItem_pos_mem targets d t _ kv hkv
    refine ⟨hm, ?_⟩
    obtain ⟨k, v⟩ := kv
    simp only at ht'
    subst ht'
    rw [← hd.typed k t' hm _ (stripAttr_without targets k)]
    have : t ≠ .any := fun h => ha (h ▸ ht)
    unfold PType.isSub at hs
    simpa [this] using hs
  have hstrip : ((types.filterMap ((fun q => findItem targets d q (some (stripDots T))) ∘ Query.pos)).map
      fun kv => stripAttr targets kv.1).Nodup := by
    have : ∀ l : List PType, l.Nodup → (∀ t ∈ l, t ∈ types) →
        ((l.filterMap ((fun q => findItem targets d q (some (stripDots T))) ∘ Query.pos)).map
          fun kv => stripAttr targets kv.1).Nodup := by
      intro l
      induction l with
      | nil => intro _ _; simp
      | cons t l ih =>
        intro hl hsub
        simp only [List.nodup_cons] at hl
        have ih := ih hl.2 fun x hx => hsub x (by simp [hx])
        rw [List.filterMap_cons]
        cases hf : findItem targets d (.pos t) (some (stripDots T)) with
        | none => simpa [hf, Function.comp] using ih
        | some kv =>
          simp only [Function.comp, hf]
          simp only [List.map_cons, List.nodup_cons]
          refine ⟨?_, ih⟩
          intro hm
          obtain ⟨kv', hkv', he⟩ := List.mem_map.1 hm
          obtain ⟨t', ht', hf'⟩ := List.mem_filterMap.1 hkv'
          have h1 := (hspec t (hsub t (by simp)) kv hf).2
          have h2 := (hspec t' (hsub t' (by simp [ht'])) kv' hf').2
          rw [he, h1] at h2
          subst h2
          exact hl.1 ht'
    exact this types hn fun _ h => h
  rw [update_nil_of_nodup _ (keys_nodup_of_strip _ _ hstrip), strip_of_nodup _ hg _ hstrip]
  · rw [List.map_filterMap]
    rfl
  · intro kv hkv
    obtain ⟨t, ht, hf⟩ := List.mem_filterMap.1 hkv
    exact hd.single _ (List.mem_map_of_mem (hspec t ht kv hf).1) _ (stripAttr_without targets _)

/-- What `get` gives for a class. -/
theorem get_pos (targets : Targets) (d : ADict) (t : PType) (target : Option Str) :
    Attrs.get targets d (.pos t) target =
      (findItem targets d (.pos t) target).map fun kv => AVal.str (stripAttr targets kv.1) := by
  unfold Attrs.get
  rfl

theorem stripDots_idem (T : Str) (h : '.' ∉ T) : stripDots T = T := stripDots_of_no_dot T h

/-- The required arguments for classes of positional values. -/
theorem requiredStr_pos (targets : Targets) (hg : GoodTargets targets) (posType : Str → PType) (args : Table)
    (name : Str) (d : ADict) (hd : Loaded targets posType d) (types : List PType) (hn : types.Nodup)
    (ha : PType.any ∉ types) (h : args.get? name = some (types.map .pos)) :
    ((∃ t ∈ types, Attrs.get targets d (.pos t) (some texTarget) = none) → requiredStr targets args name d = .error .arguments) ∧
    (∀ v : PType → Str, (∀ t ∈ types, Attrs.get targets d (.pos t) (some texTarget) = some (.str (v t))) →
      requiredStr targets args name d = .ok (types.flatMap fun t => '{' :: v t ++ ['}'])) := by
  have hdot : stripDots texTarget = texTarget := stripDots_of_no_dot _ (by decide)
  have hf := filter_pos targets hg posType d hd texTarget types hn ha
  rw [hdot] at hf
  constructor
  · rintro ⟨t, ht, hg⟩
    unfold requiredStr
    rw [h]
    dsimp only
    rw [hf, if_pos]
    rw [List.length_map]
    have hnone : findItem targets d (.pos t) (some texTarget) = none := by
      rw [get_pos] at hg
      cases hfi : findItem targets d (.pos t) (some texTarget) with
      | none => rfl
      | some kv => simp [hfi] at hg
    intro he
    have hlt : ∀ l : List PType, t ∈ l → (l.filterMap fun t => (findItem targets d (.pos t) (some texTarget)).map
        fun kv => (stripAttr targets kv.1, kv.2)).length < l.length := by
      intro l
      induction l with
      | nil => intro h; simp at h
      | cons x l ih =>
        intro hx
        by_cases hxt : x = t
        · subst hxt
          rw [List.filterMap_cons_none (by simp [hnone])]
          have := List.length_filterMap_le (fun t => (findItem targets d (.pos t) (some texTarget)).map
            fun kv => (stripAttr targets kv.1, kv.2)) l
          simp only [List.length_cons]; omega
        · have := ih (by rcases List.mem_cons.1 hx with h | h
                         · exact absurd h.symm hxt
                         · exact h)
          rw [List.filterMap_cons]
          split
          · simp only [List.length_cons]; omega
          · simp only [List.length_cons]; omega
    have := hlt types ht
    omega
  · intro v hv
    unfold requiredStr
    rw [h]
    dsimp only
    rw [hf]
    have hall : ∀ l : List PType, (∀ t ∈ l, Attrs.get targets d (.pos t) (some texTarget) = some (.str (v t))) →
        (l.filterMap fun t => (findItem targets d (.pos t) (some texTarget)).map
          fun kv => (stripAttr targets kv.1, kv.2)).length = l.length ∧
        texArguments (l.filterMap fun t => (findItem targets d (.pos t) (some texTarget)).map
          fun kv => (stripAttr targets kv.1, kv.2)) = l.flatMap fun t => '{' :: v t ++ ['}'] := by
      intro l
      induction l with
      | nil => intro _; exact ⟨rfl, rfl⟩
      | cons t l ih =>
        intro hl
        have ih := ih fun x hx => hl x (by simp [hx])
        have ht := hl t (by simp)
        rw [get_pos] at ht
        cases hfi : findItem targets d (.pos t) (some texTarget) with
        | none => simp [hfi] at ht
        | some kv =>
          obtain ⟨_, t', ht', _⟩ := findItem_pos_mem targets d t _ kv hfi
          simp only [hfi, Option.map_some, Option.some.injEq, AVal.str.injEq] at ht
          rw [List.filterMap_cons_some (by rw [hfi]; rfl)]
          refine ⟨by simp [ih.1], ?_⟩
          have h2 := ih.2
          unfold texArguments at h2 ⊢
          rw [List.map_cons, List.flatten_cons, h2, List.flatMap_cons]
          simp only [ht', ht]
    obtain ⟨h1, h2⟩ := hall types hv
    rw [if_neg (by rw [h1, List.length_map]; simp), h2]

/-! ### Setting attributes -/

theorem setAttrs_ok (l : ADict) (e r : Dict Str Str) (h : setAttrs e l = .ok r) :
    (∀ k v, (k, v) ∈ l → ∃ s, v = .str s) ∧
    ∀ k, r.get? k = match (Dict.get? l.reverse k) with
      | some (.str s) => some s
      | _ => e.get? k := by
  induction l generalizing e with
  | nil =>
    simp only [setAttrs, Except.ok.injEq] at h
    subst h
    exact ⟨by simp, fun k => rfl⟩
  | cons kv l ih =>
    obtain ⟨k0, v0⟩ := kv
    cases v0 with
    | pos t => simp [setAttrs] at h
    | str s =>
      rw [setAttrs] at h
      obtain ⟨h1, h2⟩ := ih _ h
      refine ⟨?_, ?_⟩
      · intro k v hkv
        rcases List.mem_cons.1 hkv with hkv | hkv
        · simp at hkv; exact ⟨s, hkv.2⟩
        · exact h1 k v hkv
      · intro k
        rw [h2 k, List.reverse_cons, Dict.get?_append]
        cases hr : Dict.get? l.reverse k with
        | some v =>
          obtain ⟨s', rfl⟩ := h1 k v (by
            have := Dict.mem_of_get? _ _ _ hr
            simpa using this)
          simp
        | none =>
          rw [Dict.get?_set]
          simp only [Option.none_or, Dict.get?]
          by_cases hk : k0 = k
          · simp [hk]
          · simp [hk, Ne.symm hk]

theorem setAttrs_error (l : ADict) (e : Dict Str Str) :
    (∃ k t, (k, AVal.pos t) ∈ l) ↔ setAttrs e l = .error .typeError := by
  induction l generalizing e with
  | nil => simp [setAttrs]
  | cons kv l ih =>
    obtain ⟨k0, v0⟩ := kv
    cases v0 with
    | pos t => exact ⟨fun _ => rfl, fun _ => ⟨k0, t, by simp⟩⟩
    | str s =>
      rw [setAttrs, ← ih (e.set k0 s)]
      simp

theorem setAttrs_cases (l : ADict) (e : Dict Str Str) : (∃ r, setAttrs e l = .ok r) ∨ setAttrs e l = .error .typeError := by
  induction l generalizing e with
  | nil => exact Or.inl ⟨e, rfl⟩
  | cons kv l ih =>
    obtain ⟨k0, v0⟩ := kv
    cases v0 with
    | pos t => exact Or.inr rfl
    | str s => rw [setAttrs]; exact ih _

end Verif.Formats
