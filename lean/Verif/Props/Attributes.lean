import Verif.Lemmas.Attributes
import Verif.Model.Settings

/-!
# C03, C04, C05: tag attributes
-/

set_option linter.unusedSimpArgs false
set_option linter.unusedVariables false

namespace Verif.Attrs

open Verif Verif.Attrs.Spec

/-! ### Concrete data for the non-vacuity checks -/

theorem trackedTargets_good : GoodTargets trackedTargets := by
  intro t h; simp [trackedTargets] at h; rcases h with rfl | rfl | rfl | rfl <;> decide

/-- `class=one class.html=two id=x`. -/
def sample : ADict := [("class".toList, .str "one".toList), ("class.html".toList, .str "two".toList),
  ("id".toList, .str "x".toList)]

/-! ### C03 -/

/-- C03. Looking up a name for target `T` (written with or without its leading
period) gives the entry `name.T`, failing that the entry `name`, failing that
nothing.

Partial: it is assumed that no text value in the dict itself ends with a target
suffix, since `get` also strips *values*: see `C03_value_is_stripped`. -/
theorem C03_target_wins_partial (targets : List Str) (d : ADict) (T name : Str) (hT : '.' ∉ T)
    (hv : ∀ k s, (k, AVal.str s) ∈ d → ¬ Suffixed targets s) :
    get targets d (.name name) (some T) = valueFor d T name ∧
    get targets d (.name name) (some ('.' :: T)) = valueFor d T name := by
  have key : ∀ kv : Str × AVal, (kv.1, kv.2) ∈ d → (match kv.2 with
      | AVal.str s => AVal.str (stripAttr targets s)
      | AVal.pos t => AVal.pos t) = kv.2 := by
    rintro ⟨k, v⟩ h
    cases v with
    | str s => simp [stripAttr_not_suffixed _ _ (hv k s h)]
    | pos t => rfl
  have main : (findItem targets d (.name name) (some T)).map (fun (k, v) =>
      match (Query.name name : Query), v with
      | .pos _, _ => AVal.str (stripAttr targets k)
      | .name _, .str s => .str (stripAttr targets s)
      | .name _, .pos t => .pos t) = valueFor d T name := by
    rw [findItem_name _ _ _ _ hT]
    unfold valueFor
    cases h1 : d.get? (name ++ '.' :: T) with
    | some v =>
      have := key (_, v) (Dict.mem_of_get? _ _ _ h1)
      cases v <;> simpa using this
    | none =>
      cases h2 : d.get? name with
      | some v =>
        have := key (_, v) (Dict.mem_of_get? _ _ _ h2)
        cases v <;> simpa using this
      | none => rfl
  refine ⟨main, ?_⟩
  have : findItem targets d (.name name) (some ('.' :: T)) = findItem targets d (.name name) (some T) := by
    simp only [findItem, Option.map_some, stripDots_dot _ hT, stripDots_of_no_dot _ hT]
  unfold get
  rw [this]
  exact main

/-- C03. Without a target the value is that of the plain name. -/
theorem C03_without_target_partial (targets : List Str) (d : ADict) (name : Str)
    (hv : ∀ k s, (k, AVal.str s) ∈ d → ¬ Suffixed targets s) :
    get targets d (.name name) none = d.get? name := by
  unfold get
  rw [findItem_name_none]
  cases h : d.get? name with
  | none => rfl
  | some v =>
    cases v with
    | str s => simp [stripAttr_not_suffixed _ _ (hv _ s (Dict.mem_of_get? _ _ _ h))]
    | pos t => rfl

/-- C03. Entries of another target do not matter: setting or removing any entry
`n'.T'` for another target `T'` changes no lookup of a name for target `T`, and no
lookup without a target. -/
theorem C03_other_targets_do_not_leak (targets : List Str) (hg : GoodTargets targets) (d : ADict)
    (hd : d.keys.Nodup) (T T' name n' : Str) (v : AVal) (hT : T ∈ targets) (hT' : T' ∈ targets) (hne : T ≠ T')
    (hname : ¬ Suffixed targets name) :
    get targets (d.set (n' ++ '.' :: T') v) (.name name) (some T) = get targets d (.name name) (some T) ∧
    get targets (d.del (n' ++ '.' :: T')) (.name name) (some T) = get targets d (.name name) (some T) ∧
    get targets (d.set (n' ++ '.' :: T') v) (.name name) none = get targets d (.name name) none := by
  have h1 : name ++ '.' :: T ≠ n' ++ '.' :: T' := by
    intro e
    exact hne (suffix_unique _ _ _ _ (hg T hT) (hg T' hT') e).2
  have h2 : name ≠ n' ++ '.' :: T' := by
    rintro rfl
    exact hname ⟨T', hT', n', rfl⟩
  refine ⟨?_, ?_, ?_⟩
  · unfold get
    rw [findItem_name _ _ _ _ (hg T hT), findItem_name _ _ _ _ (hg T hT)]
    simp only [Dict.get?_set, h1.symm, h2.symm, if_false]
  · unfold get
    rw [findItem_name _ _ _ _ (hg T hT), findItem_name _ _ _ _ (hg T hT)]
    simp only [Dict.get?_del _ hd, h1.symm, h2.symm, if_false]
  · unfold get
    rw [findItem_name_none, findItem_name_none]
    simp only [Dict.get?_set, h2.symm, if_false]

/-- C03. The order in which the set of targets is iterated does not matter. -/
theorem C03_target_order_irrelevant (ts ts' : List Str) (hg : GoodTargets ts) (hp : ts.Perm ts')
    (d : ADict) (q : Query) (target : Option Str) : get ts d q target = get ts' d q target := by
  have hs : stripAttr ts = stripAttr ts' := funext fun s => stripAttr_perm ts ts' hg hp s
  have : isTargetSpecific ts = isTargetSpecific ts' := by
    funext s; simp [isTargetSpecific, hs]
  unfold get findItem
  rw [hs, this]

/-- C03 fails for values that look like targets: `src=chapter1.html` read back for
html is `chapter1`. -/
theorem C03_value_is_stripped :
    get trackedTargets [("src".toList, .str "chapter1.html".toList)] (.name "src".toList)
      (some "html".toList) = some (.str "chapter1".toList) := by decide

/-- C03 fails for positional values: a positional value for html is returned for
tex. -/
theorem C03_positional_leaks :
    get trackedTargets [("wide.html".toList, .pos .string)] (.pos .string) (some "tex".toList) =
      some (.str "wide".toList) := by decide

/-- C03 fails for positional values that merely end in the name of the target: for
tex, `latex` is preferred to `a`, which comes first. -/
theorem C03_positional_no_separator :
    get trackedTargets [("a".toList, .pos .string), ("latex".toList, .pos .string)] (.pos .string)
      (some "tex".toList) = some (.str "latex".toList) := by decide

/-- Positional values when no entry is specific to a target and none ends in the
name of the target: the first one of the class asked for. -/
theorem C03_positional_first_partial (targets : List Str) (d : ADict) (pt : PType) (target : Option Str)
    (hs : ∀ k ∈ d.keys, ¬ Suffixed targets k) (hg : GoodTargets targets)
    (ht : ∀ T, target = some T → ∀ k ∈ d.keys, endsWith k (stripDots T) = false) :
    get targets d (.pos pt) target =
      ((d.filter fun kv => match kv.2 with | .pos t => t.isSub pt | .str _ => false).head?).map
        fun kv => .str kv.1 := by
  unfold get findItem
  simp only
  generalize hl : (d.filter fun kv => match kv.2 with | .pos t => t.isSub pt | .str _ => false) = l
  have hmem : ∀ kv ∈ l, kv.1 ∈ d.keys := by
    intro kv h
    rw [← hl] at h
    exact List.mem_map_of_mem (List.mem_filter.1 h).1
  have hfin : (l.head?).map (fun kv => AVal.str (stripAttr targets kv.1)) =
      (l.head?).map fun kv => AVal.str kv.1 := by
    cases l with
    | nil => rfl
    | cons kv l => simp [stripAttr_not_suffixed _ _ (hs _ (hmem kv (by simp)))]
  have e : l.filter (fun kv => !isTargetSpecific targets kv.1) = l := by
    apply List.filter_eq_self.2
    intro kv h
    simp [(isTargetSpecific_false_iff _ hg kv.1).2 (hs _ (hmem kv h))]
  generalize hx : target.map stripDots = x
  have hlast : (match l with
      | kv :: _ => some kv
      | [] => l.head?) = l.head? := by cases l <;> rfl
  match x with
  | none => simp only [e]; cases l <;> simpa using hfin
  | some [] => simp only [e]; cases l <;> simpa using hfin
  | some (c :: t) =>
    have : l.filter (fun kv => endsWith kv.1 (c :: t)) = [] := by
      apply List.filter_eq_nil_iff.2
      intro kv hkv he
      cases target with
      | none => simp at hx
      | some T =>
        simp at hx
        have := ht T rfl kv.1 (hmem kv hkv)
        rw [hx, he] at this
        simp at this
    simp only [this]
    simpa using hfin

example : get trackedTargets sample (.name "class".toList) (some "html".toList) =
    some (.str "two".toList) := by decide
example : get trackedTargets sample (.name "class".toList) (some "tex".toList) =
    some (.str "one".toList) := by decide
example : ∀ k s, (k, AVal.str s) ∈ sample → ¬ Suffixed trackedTargets s := by
  intro k s h
  rw [← isTargetSpecific_false_iff _ trackedTargets_good]
  simp [sample] at h
  rcases h with ⟨_, rfl⟩ | ⟨_, rfl⟩ | ⟨_, rfl⟩ <;> decide

/-! ### C04 -/

/-- C04. Filtering for plain names and target `T`: the result holds, for every name
asked for, its value for `T` (see `valueFor`) under the plain name, and nothing
else; every name occurs once. -/
theorem C04_filter_entries (targets : List Str) (hg : GoodTargets targets) (d : ADict) (T : Str)
    (hT : T ∈ targets) (names : List Str) (hs : ∀ n ∈ names, ¬ Suffixed targets n) (byAttrs : Bool) :
    let out := filter targets d (some (names.map .name)) (some T) byAttrs
    out.keys.Nodup ∧ ∀ n v, (n, v) ∈ out ↔ n ∈ names ∧ valueFor d T n = some v := by
  intro out
  have hu : Lists.uniq id (names.map Query.name) = (Lists.uniq id names).map Query.name := uniq_map_name names
  have hun : (Lists.uniq id names).Nodup ∧ ∀ n, n ∈ Lists.uniq id names ↔ n ∈ names := by
    have h1 := Lists.uniq_nodup names
    have h2 := Lists.mem_uniq names
    exact ⟨h1, h2⟩
  have hout : ∃ l : List Str, l.Perm (Lists.uniq id names) ∧
      out = l.filterMap fun n => (valueFor d T n).map fun v => (n, v) := by
    cases byAttrs with
    | true =>
      refine ⟨Lists.uniq id names, List.Perm.refl _, ?_⟩
      have := filter_plain_aux targets hg d T hT (Lists.uniq id names) hun.1
        (fun n h => hs n ((hun.2 n).1 h))
      simp only [out, filter, Option.getD_some, hu, Option.map_some, stripDots_of_no_dot _ (hg T hT), if_true]
      exact this
    | false =>
      refine ⟨sortedBy (fun s => d.keys.idxOf s) (Lists.uniq id names), sortedBy_perm _ _, ?_⟩
      have := filter_plain_aux targets hg d T hT (sortedBy (fun s => d.keys.idxOf s) (Lists.uniq id names))
        (sortedBy_nodup _ _ hun.1) (fun n h => hs n ((hun.2 n).1 ((mem_sortedBy _ _ _).1 h)))
      simp only [out, filter, Option.getD_some, hu, Option.map_some, stripDots_of_no_dot _ (hg T hT),
        if_true, sortedBy_map, Bool.false_eq_true, if_false, order_name]
      exact this
  obtain ⟨l, hp, e⟩ := hout
  rw [e]
  constructor
  · have hl : l.Nodup := hp.nodup_iff.2 hun.1
    clear e hp
    induction l with
    | nil => simp [Dict.keys]
    | cons a l ih =>
      simp at hl
      simp only [List.filterMap_cons]
      cases hv : valueFor d T a with
      | none => simpa [hv] using ih hl.2
      | some v =>
        simp only [Option.map_some, Dict.keys_cons, List.nodup_cons]
        refine ⟨?_, ih hl.2⟩
        intro hm
        simp only [Dict.keys, List.mem_map, List.mem_filterMap] at hm
        obtain ⟨⟨n, v'⟩, ⟨n', hn', hv'⟩, rfl⟩ := hm
        cases hx : valueFor d T n' with
        | none => simp [hx] at hv'
        | some w =>
          simp [hx] at hv'
          obtain ⟨rfl, _⟩ := hv'
          exact hl.1 hn'
  · intro n v
    simp only [List.mem_filterMap]
    constructor
    · rintro ⟨n', hn', hv'⟩
      cases hx : valueFor d T n' with
      | none => simp [hx] at hv'
      | some w =>
        simp [hx] at hv'
        obtain ⟨rfl, rfl⟩ := hv'
        exact ⟨(hun.2 _).1 (hp.mem_iff.1 hn'), hx⟩
    · rintro ⟨h1, h2⟩
      exact ⟨n, hp.mem_iff.2 ((hun.2 n).2 h1), by simp [h2]⟩

theorem first_head (p : Str × AVal → Prop) (q : Str × AVal → Bool) (hpq : ∀ e, q e = true ↔ p e) (d : List (Str × AVal)) :
    (∀ e, (d.filter q).head? = some e → First p d e) ∧ ((d.filter q).head? = none → ∀ e ∈ d, ¬ p e) := by
  induction d with
  | nil => simp
  | cons x d ih =>
    simp only [List.filter_cons]
    cases hq : q x with
    | true =>
      have hx := (hpq x).1 hq
      simp only [if_true, List.head?_cons, Option.some.injEq, reduceCtorEq, false_implies, and_true]
      rintro e rfl
      exact ⟨[], d, rfl, hx, by simp⟩
    | false =>
      have hx : ¬ p x := fun h => by rw [(hpq x).2 h] at hq; simp at hq
      simp only [Bool.false_eq_true, if_false]
      constructor
      · intro e he
        obtain ⟨a, b, h1, h2, h3⟩ := ih.1 e he
        refine ⟨x :: a, b, by rw [h1]; rfl, h2, ?_⟩
        intro y hy
        rcases List.mem_cons.1 hy with rfl | hy
        · exact hx
        · exact h3 y hy
      · intro he e hm
        rcases List.mem_cons.1 hm with rfl | hm
        · exact hx
        · exact ih.2 he e hm

/-- C04. Filtering for a class of positional values without a target: the first entry of the class that is for no target, and
failing that the first of the class; nothing if there is none. -/
theorem C04_filter_class (targets : List Str) (hg : GoodTargets targets) (d : ADict) (pt : PType) (byAttrs : Bool) :
    (∃ e, filter targets d (some [.pos pt]) none byAttrs false = [e] ∧
      (First (fun x => OfClass pt x ∧ ¬ Suffixed targets x.1) d e ∨
        ((∀ x ∈ d, ¬ (OfClass pt x ∧ ¬ Suffixed targets x.1)) ∧ First (OfClass pt) d e))) ∨
    (filter targets d (some [.pos pt]) none byAttrs false = [] ∧ ∀ x ∈ d, ¬ OfClass pt x) := by
  have hout : filter targets d (some [.pos pt]) none byAttrs false = (findItem targets d (.pos pt) none).toList := by
    have h1 : (if byAttrs = true then [Query.pos pt] else sortedBy (order d) [Query.pos pt]) = [Query.pos pt] := by
      cases byAttrs <;> rfl
    have h2 : Lists.uniq id [Query.pos pt] = [Query.pos pt] := rfl
    simp only [filter, Option.getD_some, h2, h1, removeAttrs, Option.map_none]
    cases hf : findItem targets d (.pos pt) none with
    | none => simp [hf, Dict.update]
    | some kv => simp [hf, Dict.update, Dict.set]
  rw [hout]
  let q : Str × AVal → Bool := fun kv => match kv.2 with
    | .pos t => t.isSub pt
    | .str _ => false
  have hq : ∀ e, q e = true ↔ OfClass pt e := by
    rintro ⟨k, v⟩
    cases v with
    | str s => simp [q, OfClass]
    | pos t => simp [q, OfClass, PType.isSub]
  have hr : ∀ e, (q e && !isTargetSpecific targets e.1) = true ↔ OfClass pt e ∧ ¬ Suffixed targets e.1 := by
    intro e
    rw [Bool.and_eq_true, hq, Bool.not_eq_true', isTargetSpecific_false_iff _ hg]
  have hfi : findItem targets d (.pos pt) none = ((d.filter fun e => q e && !isTargetSpecific targets e.1).head?).or ((d.filter q).head?) := by
    have e1 : (d.filter q).filter (fun kv => !isTargetSpecific targets kv.1) = d.filter fun e => q e && !isTargetSpecific targets e.1 := by
      rw [List.filter_filter]
      apply List.filter_congr
      intro x _; exact Bool.and_comm _ _
    rw [← e1]
    simp only [findItem, Option.map_none]
    show (match (d.filter q).filter (fun kv => !isTargetSpecific targets kv.1) with | kv :: _ => some kv | [] => (d.filter q).head?) = _
    cases (d.filter q).filter (fun kv => !isTargetSpecific targets kv.1) <;> rfl
  rw [hfi]
  obtain ⟨a1, a2⟩ := first_head _ _ hr d
  obtain ⟨b1, b2⟩ := first_head _ _ hq d
  cases h1 : (d.filter fun e => q e && !isTargetSpecific targets e.1).head? with
  | some e => exact .inl ⟨e, rfl, .inl (a1 e h1)⟩
  | none =>
    cases h2 : (d.filter q).head? with
    | some e => exact .inl ⟨e, rfl, .inr ⟨a2 h1, b1 e h2⟩⟩
    | none => exact .inr ⟨rfl, b2 h2⟩

example : filter trackedTargets [("5.tex".toList, .pos .int), ("a".toList, .str "3".toList), ("7".toList, .pos .int)] (some [.pos .int]) none false
    false = [("7".toList, .pos .int)] := by decide

/-- C04, the order with `sort_by_attrs`: the names as requested, without repeats
(`Lists.uniq`, see C36) and without those that have no value. -/
theorem C04_requested_order (targets : List Str) (hg : GoodTargets targets) (d : ADict) (T : Str)
    (hT : T ∈ targets) (names : List Str) (hs : ∀ n ∈ names, ¬ Suffixed targets n) :
    (filter targets d (some (names.map .name)) (some T) true).keys =
      (Lists.uniq id names).filter fun n => (valueFor d T n).isSome := by
  have hu : Lists.uniq id (names.map Query.name) = (Lists.uniq id names).map Query.name := uniq_map_name names
  have := filter_plain_aux targets hg d T hT (Lists.uniq id names) (Lists.uniq_nodup names)
    (fun n h => hs n ((Lists.mem_uniq names n).1 h))
  simp only [filter, Option.getD_some, hu, Option.map_some, stripDots_of_no_dot _ (hg T hT), if_true]
  rw [this]
  generalize Lists.uniq id names = l
  induction l with
  | nil => rfl
  | cons a l ih =>
    simp only [List.filterMap_cons, List.filter_cons]
    cases hv : valueFor d T a with
    | none => simpa using ih
    | some v => simp [ih]

/-- C04, the order without `sort_by_attrs`: the names that have a plain entry come in
the dict's order.

Partial: a name that only has an entry `name.T` is placed after all of those,
wherever that entry is in the dict, see `C04_order_of_specific_entries`. -/
theorem C04_dict_order_partial (targets : List Str) (hg : GoodTargets targets) (d : ADict) (T : Str)
    (hT : T ∈ targets) (names : List Str) (hs : ∀ n ∈ names, ¬ Suffixed targets n) :
    (filter targets d (some (names.map .name)) (some T)).keys.Pairwise
      fun a b => d.keys.idxOf a ≤ d.keys.idxOf b := by
  have hu : Lists.uniq id (names.map Query.name) = (Lists.uniq id names).map Query.name := uniq_map_name names
  have := filter_plain_aux targets hg d T hT (sortedBy (fun s => d.keys.idxOf s) (Lists.uniq id names))
    (sortedBy_nodup _ _ (Lists.uniq_nodup names))
    (fun n h => hs n ((Lists.mem_uniq names n).1 ((mem_sortedBy _ _ _).1 h)))
  simp only [filter, Option.getD_some, hu, Option.map_some, stripDots_of_no_dot _ (hg T hT),
    if_true, sortedBy_map, Bool.false_eq_true, if_false, order_name]
  rw [this]
  have hp := sortedBy_pairwise (fun s => d.keys.idxOf s) (Lists.uniq id names)
  generalize sortedBy (fun s => d.keys.idxOf s) (Lists.uniq id names) = l at hp
  have hk : (Dict.keys (l.filterMap fun n => (valueFor d T n).map fun v => (n, v))).Sublist l := by
    clear this hp
    induction l with
    | nil => simp [Dict.keys]
    | cons a l ih =>
      simp only [List.filterMap_cons]
      cases hv : valueFor d T a with
      | none => simpa using ih.cons a
      | some v => simpa using ih
  exact hp.sublist hk

/-- C04 fails for the order of target-specific entries: filtering `class.html=a id=b`
for html gives `id` before `class`. -/
theorem C04_order_of_specific_entries :
    (filter trackedTargets [("class.html".toList, .str "a".toList), ("id".toList, .str "b".toList)]
      (some [.name "class".toList, .name "id".toList]) (some "html".toList)).keys =
      ["id".toList, "class".toList] := by decide

/-- C04. Filtering everything for target `T`: the entries of `T` and the general
entries that have no entry for `T`, in the dict's order, under their plain names,
which are distinct.

The hypothesis on `d` is that no key has two target suffixes. -/
theorem C04_filter_all (targets : List Str) (hg : GoodTargets targets) (d : ADict)
    (hn : d.keys.Nodup) (T : Str) (hT : T ∈ targets)
    (hd : ∀ k ∈ d.keys, ¬ Suffixed targets (stripAttr targets k)) :
    let out := filter targets d none (some T)
    (out.keys.Nodup) ∧
    (∀ n v, (n, v) ∈ out ↔ ¬ Suffixed targets n ∧ valueFor d T n = some v) ∧
    (out.map Prod.snd).Sublist (d.map Prod.snd) := by
  intro out
  have hall : ∀ kv ∈ d, d.get? kv.1 = some kv.2 := fun kv h => Dict.get?_of_mem d hn kv.1 kv.2 h
  have hu : Lists.uniq id (d.keys.map Query.name) = d.keys.map Query.name := by
    rw [uniq_map_name, uniq_of_nodup _ hn]
  have hk := nodup_strip_keep targets hg d T hT hn
  have e : out = (d.filter fun kv => keepFor targets d T kv.1).map
      fun kv => (stripAttr targets kv.1, kv.2) := by
    simp only [out, filter, Option.getD_none, hu, Option.map_some, stripDots_of_no_dot _ (hg T hT),
      if_true, Bool.false_eq_true, if_false, sortedBy_keys d hn]
    rw [filterMap_findItem_keep targets hg d T hT hd d hall]
    rw [update_nil_of_nodup _ (keys_nodup_of_strip _ _ hk)]
    apply strip_of_nodup _ hg _ hk
    intro kv hkv
    exact hd _ (List.mem_map_of_mem (List.mem_filter.1 hkv).1)
  rw [e]
  refine ⟨?_, ?_, ?_⟩
  · simpa [Dict.keys, List.map_map, Function.comp_def] using hk
  · intro n v
    simp only [List.mem_map, List.mem_filter]
    constructor
    · rintro ⟨⟨k, w⟩, ⟨hm, hkeep⟩, hkv⟩
      simp only [Prod.mk.injEq] at hkv
      obtain ⟨rfl, rfl⟩ := hkv
      have hkm : k ∈ d.keys := List.mem_map_of_mem (f := Prod.fst) hm
      refine ⟨hd k hkm, ?_⟩
      have hg' := hall _ hm
      simp only at hkeep hg'
      unfold keepFor at hkeep
      unfold valueFor
      split at hkeep
      · obtain ⟨m, rfl⟩ := (endsWith_iff _ _).1 hkeep
        rw [stripAttr_suffixed _ hg _ _ hT, hg']
      · rename_i hsp
        rw [isTargetSpecific_iff _ hg] at hsp
        rw [stripAttr_not_suffixed _ _ hsp]
        have : d.get? (k ++ '.' :: T) = none := by
          rw [Dict.get?_eq_none_iff]
          intro hm'
          rw [(Dict.has_iff d _).2 hm'] at hkeep
          simp at hkeep
        rw [this, hg']
    · rintro ⟨h1, h2⟩
      unfold valueFor at h2
      split at h2
      · rename_i w hw
        simp at h2
        subst h2
        refine ⟨(n ++ '.' :: T, w), ⟨Dict.mem_of_get? _ _ _ hw, ?_⟩, ?_⟩
        · simp only [keepFor]
          rw [if_pos ((isTargetSpecific_iff _ hg _).2 ⟨T, hT, n, rfl⟩)]
          exact (endsWith_iff _ _).2 ⟨n, rfl⟩
        · simp [stripAttr_suffixed _ hg _ _ hT]
      · rename_i hnone
        refine ⟨(n, v), ⟨Dict.mem_of_get? _ _ _ h2, ?_⟩, ?_⟩
        · simp only [keepFor]
          rw [if_neg (by rw [isTargetSpecific_iff _ hg]; exact h1)]
          cases hb : Dict.has d (n ++ '.' :: T) with
          | false => rfl
          | true =>
            rw [Dict.has_iff, ← Dict.get?_isSome_iff, hnone] at hb
            simp at hb
        · simp [stripAttr_not_suffixed _ _ h1]
  · simp only [List.map_map]
    exact (List.filter_sublist (l := d)).map _

/-- C04. Filtering for no target keeps the entries that belong to no target. -/
theorem C04_filter_without_target (targets : List Str) (hg : GoodTargets targets) (d : ADict)
    (hn : d.keys.Nodup) (hd : ∀ k ∈ d.keys, ¬ Suffixed targets (stripAttr targets k)) :
    filter targets d none none = d.filter fun kv => !isTargetSpecific targets kv.1 := by
  have hall : ∀ kv ∈ d, d.get? kv.1 = some kv.2 := fun kv h => Dict.get?_of_mem d hn kv.1 kv.2 h
  have hu : Lists.uniq id (d.keys.map Query.name) = d.keys.map Query.name := by
    rw [uniq_map_name, uniq_of_nodup _ hn]
  have e : ((d.keys.map Query.name).filter (· ∉ removeAttrs targets (d.keys.map Query.name) none)).filterMap
      (fun q => findItem targets d q none) = d.filter fun kv => !isTargetSpecific targets kv.1 := by
    have : ∀ l : ADict, (∀ kv ∈ l, kv ∈ d) →
        ((l.keys.map Query.name).filter (· ∉ removeAttrs targets (d.keys.map Query.name) none)).filterMap
          (fun q => findItem targets d q none) = l.filter fun kv => !isTargetSpecific targets kv.1 := by
      intro l
      induction l with
      | nil => intro _; rfl
      | cons kv l ih =>
        intro h
        have ih := ih (fun kv h' => h kv (by simp [h']))
        have hkd : kv.1 ∈ d.keys := List.mem_map_of_mem (h kv (by simp))
        simp only [Dict.keys_cons, List.map_cons, List.filter_cons]
        cases hb : isTargetSpecific targets kv.1 with
        | true =>
          have : Query.name kv.1 ∈ removeAttrs targets (d.keys.map .name) none := by
            simp [removeAttrs, hkd, hb]
          simp only [this, not_true_eq_false, decide_false, Bool.false_eq_true, if_false, Bool.not_true]
          exact ih
        | false =>
          have : Query.name kv.1 ∉ removeAttrs targets (d.keys.map .name) none := by
            simp [removeAttrs, hb]
          simp only [this, not_false_eq_true, decide_true, if_true, Bool.not_false]
          rw [List.filterMap_cons, findItem_name_none, hall kv (h kv (by simp))]
          simp only [Option.map_some, ih]
    exact this d (fun _ h => h)
  have hsub : (Dict.keys (d.filter fun kv => !isTargetSpecific targets kv.1)).Sublist d.keys :=
    (List.filter_sublist (l := d)).map _
  simp only [filter, Option.getD_none, hu, Option.map_none, if_true, Bool.false_eq_true, if_false,
    sortedBy_keys d hn]
  rw [e, update_nil_of_nodup _ (hn.sublist hsub)]
  have hid : ∀ kv ∈ d.filter (fun kv => !isTargetSpecific targets kv.1), stripAttr targets kv.1 = kv.1 := by
    intro kv h
    have := (List.mem_filter.1 h).2
    simp only [Bool.not_eq_true'] at this
    exact stripAttr_not_suffixed _ _ ((isTargetSpecific_false_iff _ hg _).1 this)
  rw [strip_of_nodup _ hg]
  · conv => rhs; rw [← List.map_id (d.filter fun kv => !isTargetSpecific targets kv.1)]
    apply List.map_congr_left
    intro kv h
    simp [hid kv h]
  · rw [List.map_congr_left (g := Prod.fst) hid]
    exact hn.sublist hsub
  · intro kv h
    exact hd _ (List.mem_map_of_mem (List.mem_filter.1 h).1)

example : filter trackedTargets sample none (some "html".toList) =
    [("class".toList, .str "two".toList), ("id".toList, .str "x".toList)] := by decide
example : ∀ k ∈ sample.keys, ¬ Suffixed trackedTargets (stripAttr trackedTargets k) := by
  intro k h
  rw [← isTargetSpecific_false_iff _ trackedTargets_good]
  simp [sample, Dict.keys] at h
  rcases h with rfl | rfl | rfl <;> decide

theorem foldl_set_none (f : Str → Str) (l : ADict) (acc : ADict) (n : Str) (h : ∀ kv ∈ l, f kv.1 ≠ n) :
    Dict.get? (l.foldl (fun acc kv => acc.set (f kv.1) kv.2) acc) n = Dict.get? acc n := by
  induction l generalizing acc with
  | nil => rfl
  | cons kv l ih =>
    rw [List.foldl_cons, ih _ (fun x hx => h x (by simp [hx])), Dict.get?_set]
    have := h kv (by simp)
    simp [this, Ne.symm this]

theorem foldl_set_some (f : Str → Str) (l : ADict) (acc : ADict) (n : Str) (v : AVal) (hex : ∃ kv ∈ l, f kv.1 = n)
    (h : ∀ kv ∈ l, f kv.1 = n → kv.2 = v) :
    Dict.get? (l.foldl (fun acc kv => acc.set (f kv.1) kv.2) acc) n = some v := by
  induction l generalizing acc with
  | nil => simp at hex
  | cons kv l ih =>
    rw [List.foldl_cons]
    by_cases hl : ∃ kv ∈ l, f kv.1 = n
    · exact ih _ hl (fun x hx => h x (by simp [hx]))
    · rw [foldl_set_none f l _ n (fun x hx he => hl ⟨x, hx, he⟩)]
      obtain ⟨x, hx, hfx⟩ := hex
      rcases List.mem_cons.1 hx with rfl | hx
      · rw [← hfx, Dict.get?_set_self, h x (by simp) hfx]
      · exact absurd ⟨x, hx, hfx⟩ hl

/-- C04. Stripping the target suffixes: an entry for a target wins over the general entry of the same name (if it is
the only entry for a target with that name), a general entry without such a rival is kept, and nothing else
appears. -/
theorem C04_strip (targets : List Str) (hg : GoodTargets targets) (d : ADict) (hn : d.keys.Nodup)
    (hd : ∀ k ∈ d.keys, ¬ Suffixed targets (stripAttr targets k)) :
    (∀ k v, (k, v) ∈ d → Suffixed targets k →
      (∀ k' ∈ d.keys, Suffixed targets k' → stripAttr targets k' = stripAttr targets k → k' = k) →
      (strip targets d).get? (stripAttr targets k) = some v) ∧
    (∀ n v, (n, v) ∈ d → ¬ Suffixed targets n → (∀ k ∈ d.keys, Suffixed targets k → stripAttr targets k ≠ n) →
      (strip targets d).get? n = some v) ∧
    (∀ n, (strip targets d).get? n ≠ none → ∃ k ∈ d.keys, stripAttr targets k = n) := by
  have hspec : ∀ k, Suffixed targets k ↔ isTargetSpecific targets k = true := by
    intro k
    unfold isTargetSpecific
    constructor
    · rintro ⟨t, ht, n, rfl⟩
      rw [stripAttr_suffixed _ hg _ _ ht]
      simp
    · intro h
      refine Classical.byContradiction fun hs => ?_
      rw [stripAttr_not_suffixed _ _ hs] at h
      simp at h
  have hmem : ∀ k v v', (k, v) ∈ d → (k, v') ∈ d → v = v' := by
    intro k v v' h1 h2
    have := Dict.get?_of_mem d hn k v h1
    rw [Dict.get?_of_mem d hn k v' h2] at this
    simpa using this.symm
  refine ⟨?_, ?_, ?_⟩
  · intro k v hk hs huniq
    have hkd : k ∈ d.keys := List.mem_map.2 ⟨_, hk, rfl⟩
    apply foldl_set_some
    · refine ⟨(k, v), ?_, rfl⟩
      rw [List.mem_filter]
      refine ⟨hk, ?_⟩
      simp only [decide_eq_true_eq, List.mem_map, List.mem_filter, not_exists, not_and]
      rintro k' ⟨hk', _⟩ he
      exact hd k' hk' (he ▸ hs)
    · rintro ⟨k', v'⟩ hk' he
      rw [List.mem_filter] at hk'
      simp only at he
      by_cases hs' : Suffixed targets k'
      · have := huniq k' (List.mem_map.2 ⟨_, hk'.1, rfl⟩) hs' he
        subst this
        exact hmem _ _ _ hk'.1 hk
      · rw [stripAttr_not_suffixed _ _ hs'] at he
        exfalso
        have h2 := hk'.2
        simp only [decide_eq_true_eq] at h2
        exact h2 (List.mem_map.2 ⟨k, List.mem_filter.2 ⟨hkd, (hspec k).1 hs⟩, he.symm⟩)
  · intro n v hnv hs hno
    apply foldl_set_some
    · refine ⟨(n, v), ?_, stripAttr_not_suffixed _ _ hs⟩
      rw [List.mem_filter]
      refine ⟨hnv, ?_⟩
      simp only [decide_eq_true_eq, List.mem_map, List.mem_filter, not_exists, not_and]
      rintro k' ⟨hk', hsp⟩ he
      exact hno k' hk' ((hspec k').2 hsp) he
    · rintro ⟨k', v'⟩ hk' he
      rw [List.mem_filter] at hk'
      by_cases hs' : Suffixed targets k'
      · exact absurd he (hno k' (List.mem_map.2 ⟨_, hk'.1, rfl⟩) hs')
      · rw [stripAttr_not_suffixed _ _ hs'] at he
        subst he
        exact hmem _ _ _ hk'.1 hnv
  · intro n h
    refine Classical.byContradiction fun hno => ?_
    apply h
    unfold strip
    rw [foldl_set_none]
    · rfl
    · rintro ⟨k, v⟩ hk he
      exact hno ⟨k, List.mem_map.2 ⟨_, (List.mem_filter.1 hk).1, rfl⟩, he⟩

example : strip trackedTargets [("a.html".toList, .str "1".toList), ("a".toList, .str "2".toList),
    ("b".toList, .str "3".toList)] = [("a".toList, .str "1".toList), ("b".toList, .str "3".toList)] := by decide

/-! ### C05 -/

section
variable (isWord isSpace : Char → Bool) (hc : Classes isWord isSpace)
include hc

/-- C05. An attribute string that spells a list of entries with distinct names, in
any mix of quoting styles, loads to exactly these entries in this order. -/
theorem C05_load_inverts_spelling (targets : List Str) (posType : Str → PType)
    (es : List ((Str × AVal) × Style)) (he : ∀ e ∈ es, CanSpell isWord isSpace targets posType e)
    (hn : (es.map fun e => e.1.1).Nodup) :
    load targets posType isWord isSpace (spellAll es) = es.map Prod.fst := by
  unfold load
  rw [tokens_spellAll isWord isSpace hc targets posType es he _ (by omega)]
  exact update_nil_of_nodup _ (by simpa [Dict.keys, List.map_map, Function.comp_def] using hn)

/-- C05. Formatting attributes for html and loading the string again gives the same
names, values and order.

Partial: only for the entries that html quoting can carry, i.e. no `'` in a value and
(see `CanSpell`) the names a tag's attributes can have; `C05_quote_lost` shows
that a value with quotes does not survive. -/
theorem C05_html_round_trip_partial (targets : List Str) (posType : Str → PType) (d : ADict)
    (hn : d.keys.Nodup) (hd : ∀ e ∈ d, CanSpell isWord isSpace targets posType (e, .single)) :
    load targets posType isWord isSpace (html d) = d := by
  have e : html d = spellAll (d.map fun e => (e, Style.single)) := by
    clear hn hd
    unfold html
    induction d with
    | nil => rfl
    | cons e d ih =>
      cases d with
      | nil => obtain ⟨k, v⟩ := e; cases v <;> simp [spellAll, spell, List.intercalate]
      | cons e' d =>
        simp only [List.map_cons] at ih ⊢
        rw [spellAll, ← ih]
        · obtain ⟨k, v⟩ := e
          cases v <;> simp [spell, List.intercalate, List.intersperse]
        · simp
  rw [e, C05_load_inverts_spelling isWord isSpace hc targets posType]
  · simp [List.map_map, Function.comp_def]
  · intro x hx
    simp only [List.mem_map] at hx
    obtain ⟨y, hy, rfl⟩ := hx
    exact hd y hy
  · simpa [Dict.keys, List.map_map, Function.comp_def] using hn

/-- C05. Reading a loaded string back as a tuple gives exactly the spelled names and values, in order, with no
value for positional entries. -/
theorem C05_to_tuple (targets : List Str) (posType : Str → PType)
    (es : List ((Str × AVal) × Style)) (he : ∀ e ∈ es, CanSpell isWord isSpace targets posType e)
    (hn : (es.map fun e => e.1.1).Nodup) :
    toTuple (load targets posType isWord isSpace (spellAll es)) = es.map fun e => (e.1.1, e.1.2.text) := by
  rw [C05_load_inverts_spelling isWord isSpace hc targets posType es he hn]
  simp only [toTuple, List.map_map]
  apply List.map_congr_left
  rintro ⟨⟨k, v⟩, st⟩ _
  cases v <;> rfl

end

/-- ASCII versions of `\w` and `\s`, for the concrete checks. -/
def asciiWord (c : Char) : Bool := c.isAlphanum || c = '_'
def asciiSpace (c : Char) : Bool := c = ' ' || c = '\n' || c = '\t'

theorem ascii_classes : Classes asciiWord asciiSpace where
  space := by decide
  disjoint := by
    intro c h
    simp [asciiSpace] at h
    rcases h with (rfl | rfl) | rfl <;> decide
  eq_word := by decide
  eq_space := by decide
  sq_word := by decide
  sq_space := by decide
  dq_word := by decide
  dq_space := by decide
  dot_space := by decide

/-- C05 fails for values that begin or end with quotes: `alt="'x'"` loads as `x`. -/
theorem C05_quote_lost :
    load trackedTargets (fun _ => .string) asciiWord asciiSpace "alt=\"'x'\"".toList =
      [("alt".toList, .str "x".toList)] := by decide

/-- C05 fails for values with a `'`: the value `it's` does not survive html
formatting. -/
theorem C05_html_apostrophe :
    load trackedTargets (fun _ => .string) asciiWord asciiSpace
      (html [("alt".toList, .str "it's".toList)]) ≠ [("alt".toList, .str "it's".toList)] := by decide

example : load trackedTargets (fun _ => .string) asciiWord asciiSpace
    "src='a b' width=3 wide".toList =
    [("src".toList, .str "a b".toList), ("width".toList, .str "3".toList),
     ("wide".toList, .pos .string)] := by decide
example : ∀ e ∈ ([((("src".toList, .str "a b".toList)), Style.single),
    (("width".toList, .str "3".toList), .bare), (("wide".toList, .pos .string), .bare)] :
    List ((Str × AVal) × Style)),
    CanSpell asciiWord asciiSpace trackedTargets (fun _ => .string) e := by
  intro e h
  simp only [List.mem_cons, List.not_mem_nil, or_false] at h
  rcases h with rfl | rfl | rfl
  · exact ⟨by decide, by decide, by decide⟩
  · exact ⟨by decide, by decide, by decide, by decide⟩
  · exact ⟨by decide, by decide, fun _ _ => rfl⟩

end Verif.Attrs
