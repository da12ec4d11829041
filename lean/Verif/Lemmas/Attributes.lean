import Verif.Spec.Attributes
import Verif.Lemmas.Dict
import Verif.Lemmas.Lists
import Verif.Lemmas.Parser

set_option linter.unusedSimpArgs false
set_option linter.unusedVariables false

namespace Verif.Attrs

open Verif Verif.Attrs.Spec

/-! ### Target suffixes -/

theorem suffix_unique (a b t t' : Str) (ht : '.' ∉ t) (ht' : '.' ∉ t')
    (h : a ++ '.' :: t = b ++ '.' :: t') : a = b ∧ t = t' := by
  have hr := congrArg List.reverse h
  simp at hr
  have key : ∀ (x y : Str) (p q : Str), '.' ∉ x → '.' ∉ y →
      x ++ '.' :: p = y ++ '.' :: q → x = y ∧ p = q := by
    intro x
    induction x with
    | nil =>
      intro y p q _ hy e
      cases y with
      | nil => simpa using e
      | cons c y => simp at e; simp at hy; exact absurd e.1 hy.1
    | cons c x ih =>
      intro y p q hx hy e
      cases y with
      | nil => simp at e; simp at hx; exact absurd e.1.symm hx.1
      | cons c' y =>
        simp at e hx hy
        obtain ⟨rfl, e⟩ := e
        have := ih y p q hx.2 hy.2 e
        exact ⟨by rw [this.1], this.2⟩
  have := key t.reverse t'.reverse a.reverse b.reverse (by simpa using ht) (by simpa using ht') hr
  exact ⟨by simpa using this.2, by simpa using this.1⟩

theorem endsWith_iff (s t : Str) : endsWith s t = true ↔ ∃ n, s = n ++ t := by
  unfold endsWith
  rw [List.isSuffixOf_iff_suffix]
  constructor
  · rintro ⟨n, rfl⟩; exact ⟨n, rfl⟩
  · rintro ⟨n, rfl⟩; exact ⟨n, rfl⟩

theorem stripAttr_suffixed (targets : List Str) (h : GoodTargets targets) (n t : Str)
    (ht : t ∈ targets) : stripAttr targets (n ++ '.' :: t) = n := by
  induction targets with
  | nil => simp at ht
  | cons t0 ts ih =>
    simp only [stripAttr]
    split
    · rename_i he
      obtain ⟨m, hm⟩ := (endsWith_iff _ _).1 he
      have := suffix_unique n m t t0 (h t ht) (h t0 (by simp)) hm
      obtain ⟨rfl, rfl⟩ := this
      simp
    · rename_i he
      simp at ht
      rcases ht with rfl | ht
      · exact absurd ((endsWith_iff _ _).2 ⟨n, rfl⟩) he
      · exact ih (fun t ht => h t (by simp [ht])) ht

theorem stripAttr_not_suffixed (targets : List Str) (s : Str) (h : ¬ Suffixed targets s) :
    stripAttr targets s = s := by
  induction targets with
  | nil => rfl
  | cons t ts ih =>
    simp only [stripAttr]
    split
    · rename_i he
      obtain ⟨n, hn⟩ := (endsWith_iff _ _).1 he
      exact absurd ⟨t, by simp, n, hn⟩ h
    · apply ih
      rintro ⟨t', ht', n, hn⟩
      exact h ⟨t', by simp [ht'], n, hn⟩

theorem isTargetSpecific_iff (targets : List Str) (h : GoodTargets targets) (s : Str) :
    isTargetSpecific targets s = true ↔ Suffixed targets s := by
  unfold isTargetSpecific
  constructor
  · intro hs
    apply Classical.byContradiction
    intro hn
    rw [stripAttr_not_suffixed _ _ hn] at hs
    simp at hs
  · rintro ⟨t, ht, n, rfl⟩
    rw [stripAttr_suffixed _ h _ _ ht]
    simp

theorem isTargetSpecific_false_iff (targets : List Str) (h : GoodTargets targets) (s : Str) :
    isTargetSpecific targets s = false ↔ ¬ Suffixed targets s := by
  rw [← isTargetSpecific_iff _ h]; simp

theorem stripAttr_without (targets : List Str) (s : Str) : WithoutTarget targets s (stripAttr targets s) := by
  induction targets with
  | nil => exact .inr ⟨fun ⟨_, h, _⟩ => (List.not_mem_nil h).elim, rfl⟩
  | cons t ts ih =>
    rw [stripAttr]
    by_cases h : endsWith s ('.' :: t) = true
    · rw [if_pos h]
      obtain ⟨a, rfl⟩ := List.isSuffixOf_iff_suffix.1 h
      refine .inl ⟨t, List.mem_cons_self, ?_⟩
      have : (a ++ '.' :: t).length - (t.length + 1) = a.length := by simp
      rw [this, List.take_left]
    · rw [if_neg h]
      rcases ih with ⟨t', ht, e⟩ | ⟨hn, e⟩
      · exact .inl ⟨t', List.mem_cons_of_mem _ ht, e⟩
      · refine .inr ⟨?_, e⟩
        rintro ⟨t', ht, n, e'⟩
        rcases List.mem_cons.1 ht with rfl | ht
        · exact h (List.isSuffixOf_iff_suffix.2 ⟨n, e'.symm⟩)
        · exact hn ⟨t', ht, n, e'⟩

theorem without_unique (targets : List Str) (h : GoodTargets targets) (k n : Str) (hn : WithoutTarget targets k n) :
    n = stripAttr targets k := by
  rcases hn with ⟨t, ht, rfl⟩ | ⟨hs, rfl⟩
  · exact (stripAttr_suffixed targets h n t ht).symm
  · exact (stripAttr_not_suffixed targets n hs).symm

theorem isSub_iff (v a : PType) : v.isSub a = true ↔ a = .any ∨ v = a := by
  simp [PType.isSub]

theorem stripAttr_perm (ts ts' : List Str) (h : GoodTargets ts) (hp : ts.Perm ts') (s : Str) :
    stripAttr ts s = stripAttr ts' s := by
  have h' : GoodTargets ts' := fun t ht => h t (hp.mem_iff.2 ht)
  by_cases hs : Suffixed ts s
  · obtain ⟨t, ht, n, rfl⟩ := hs
    rw [stripAttr_suffixed _ h _ _ ht, stripAttr_suffixed _ h' _ _ (hp.mem_iff.1 ht)]
  · rw [stripAttr_not_suffixed _ _ hs, stripAttr_not_suffixed]
    rintro ⟨t, ht, n, hn⟩
    exact hs ⟨t, hp.mem_iff.2 ht, n, hn⟩

theorem stripDots_of_no_dot (t : Str) (h : '.' ∉ t) : stripDots t = t := by
  have d : ∀ l : Str, '.' ∉ l → l.dropWhile (· = '.') = l := by
    intro l hl
    cases l with
    | nil => rfl
    | cons c l => simp at hl; simp [List.dropWhile_cons]; intro e; exact absurd e.symm hl.1
  unfold stripDots
  rw [d t h, d t.reverse (by simpa using h)]
  simp

theorem stripDots_dot (t : Str) (h : '.' ∉ t) : stripDots ('.' :: t) = t := by
  have : stripDots ('.' :: t) = stripDots t := by simp [stripDots, List.dropWhile_cons]
  rw [this, stripDots_of_no_dot t h]

/-! ### Looking up -/

theorem findItem_name (targets : List Str) (d : ADict) (n T : Str) (hT : '.' ∉ T) :
    findItem targets d (.name n) (some T) =
      match d.get? (n ++ '.' :: T) with
      | some v => some (n ++ '.' :: T, v)
      | none => (d.get? n).map fun v => (n, v) := by
  unfold findItem
  simp only [Option.map_some, stripDots_of_no_dot T hT, Option.bind_some]
  cases d.get? (n ++ '.' :: T) <;> rfl

theorem findItem_name_none (targets : List Str) (d : ADict) (n : Str) :
    findItem targets d (.name n) none = (d.get? n).map fun v => (n, v) := by
  unfold findItem
  rfl

/-! ### Filtering -/

theorem uniq_map_name (l : List Str) :
    Lists.uniq id (l.map Query.name) = (Lists.uniq id l).map Query.name := by
  have : ∀ seen : List Str, Lists.uniqLoop id (seen.map Query.name) (l.map Query.name) =
      (Lists.uniqLoop id seen l).map Query.name := by
    induction l with
    | nil => intro; rfl
    | cons a l ih =>
      intro seen
      simp only [List.map_cons, Lists.uniqLoop, id]
      have e : Query.name a ∈ seen.map Query.name ↔ a ∈ seen := by simp
      simp only [e]
      split
      · exact ih seen
      · have := ih (a :: seen)
        simp only [List.map_cons] at this
        simp [this]
  exact this []

theorem sortedInsert_map {α β : Type} (f : α → β) (key : β → Nat) (a : α) (l : List α) :
    sortedInsert key (f a) (l.map f) = (sortedInsert (fun x => key (f x)) a l).map f := by
  induction l with
  | nil => rfl
  | cons b l ih =>
    simp only [List.map_cons, sortedInsert]
    split
    · rfl
    · simp [ih]

theorem sortedBy_map {α β : Type} (f : α → β) (key : β → Nat) (l : List α) :
    sortedBy key (l.map f) = (sortedBy (fun x => key (f x)) l).map f := by
  induction l with
  | nil => rfl
  | cons a l ih => simp only [List.map_cons, sortedBy, ih, sortedInsert_map]

theorem removeAttrs_plain (targets : List Str) (names : List Str) (T : Option Str)
    (h : ∀ n ∈ names, isTargetSpecific targets n = false) :
    removeAttrs targets (names.map .name) T = [] := by
  cases T with
  | none =>
    simp only [removeAttrs, List.filter_eq_nil_iff, List.mem_map]
    rintro q ⟨n, hn, rfl⟩
    simp [h n hn]
  | some T =>
    simp only [removeAttrs, List.filterMap_eq_nil_iff, List.mem_map]
    rintro q ⟨n, hn, rfl⟩
    simp [h n hn]

/-- Re-keying a dict with new, distinct keys. -/
theorem foldl_set_map {κ α : Type} [DecidableEq κ] (f : κ → κ) (d : Dict κ α)
    (h : (d.map (fun kv => f kv.1)).Nodup) :
    d.foldl (fun (acc : Dict κ α) kv => Dict.set acc (f kv.1) kv.2) [] = d.map fun kv => (f kv.1, kv.2) := by
  have : ∀ acc : Dict κ α, (acc.keys ++ d.map (fun kv => f kv.1)).Nodup →
      d.foldl (fun (acc : Dict κ α) kv => Dict.set acc (f kv.1) kv.2) acc = acc ++ d.map fun kv => (f kv.1, kv.2) := by
    clear h
    induction d with
    | nil => intro acc _; simp
    | cons kv d ih =>
      intro acc hn
      have hk : f kv.1 ∉ acc.keys := by
        intro hk
        rw [List.nodup_append] at hn
        exact hn.2.2 _ hk _ (by simp) rfl
      simp only [List.foldl_cons, Dict.set_new _ _ _ hk, List.map_cons]
      rw [ih]
      · simp
      · simpa [Dict.keys] using hn
  simpa using this [] (by simpa using h)

theorem append_dot_injective (T : Str) (n m : Str) (h : n ++ '.' :: T = m ++ '.' :: T) : n = m :=
  List.append_cancel_right h

/-- The entry found for each of several plain names. -/
def itemFor (d : ADict) (T n : Str) : Option (Str × AVal) :=
  match d.get? (n ++ '.' :: T) with
  | some v => some (n ++ '.' :: T, v)
  | none => (d.get? n).map fun v => (n, v)

theorem itemFor_key (d : ADict) (T n : Str) (kv : Str × AVal) (h : itemFor d T n = some kv) :
    (kv.1 = n ++ '.' :: T ∨ kv.1 = n) ∧ valueFor d T n = some kv.2 := by
  unfold itemFor at h
  unfold valueFor
  split at h
  · rename_i v hv
    simp at h; subst h; simp [hv]
  · rename_i hv
    rw [hv]
    cases hn : d.get? n with
    | none => simp [hn] at h
    | some v => simp [hn] at h; subst h; simp

theorem nodup_filterMap_itemFor (targets : List Str) (hg : GoodTargets targets) (d : ADict)
    (T : Str) (hT : T ∈ targets) (names : List Str) (hn : names.Nodup)
    (hs : ∀ n ∈ names, ¬ Suffixed targets n) :
    ((names.filterMap (itemFor d T)).map fun kv => stripAttr targets kv.1).Nodup ∧
    names.filterMap (fun n => (valueFor d T n).map fun v => (n, v)) =
      (names.filterMap (itemFor d T)).map fun kv => (stripAttr targets kv.1, kv.2) := by
  have hst : ∀ n ∈ names, ∀ kv, itemFor d T n = some kv → stripAttr targets kv.1 = n := by
    intro n hnm kv hkv
    rcases (itemFor_key _ _ _ _ hkv).1 with h | h
    · rw [h, stripAttr_suffixed _ hg _ _ hT]
    · rw [h, stripAttr_not_suffixed _ _ (hs n hnm)]
  induction names with
  | nil => simp
  | cons n names ih =>
    simp at hn
    have ih := ih hn.2 (fun m hm => hs m (by simp [hm])) (fun m hm => hst m (by simp [hm]))
    cases hi : itemFor d T n with
    | none =>
      rw [List.filterMap_cons_none hi]
      have hv : (valueFor d T n).map (fun v => (n, v)) = none := by
        unfold itemFor at hi
        unfold valueFor
        split at hi
        · simp at hi
        · rename_i h; rw [h]; simpa using hi
      simp only [List.filterMap_cons, hv]
      exact ih
    | some kv =>
      rw [List.filterMap_cons_some hi]
      have hk := hst n (by simp) kv hi
      have hv : (valueFor d T n).map (fun v => (n, v)) = some (n, kv.2) := by
        rw [(itemFor_key _ _ _ _ hi).2]; rfl
      simp only [List.filterMap_cons, hv]
      simp only [List.map_cons, List.nodup_cons, hk, ih.2]
      refine ⟨⟨?_, ih.1⟩, trivial⟩
      intro hm
      simp only [List.mem_map, List.mem_filterMap] at hm
      obtain ⟨kv', ⟨m, hm, hm'⟩, e⟩ := hm
      rw [hst m (by simp [hm]) kv' hm'] at e
      subst e
      exact hn.1 hm

theorem nodup_of_map_nodup {α β : Type} (f : α → β) (l : List α) (h : (l.map f).Nodup) :
    l.Nodup := by
  induction l with
  | nil => simp
  | cons a l ih =>
    simp only [List.map_cons, List.nodup_cons] at h ⊢
    exact ⟨fun ha => h.1 (List.mem_map_of_mem ha), ih h.2⟩

theorem keys_nodup_of_strip (targets : List Str) (out : ADict)
    (h : (out.map fun kv => stripAttr targets kv.1).Nodup) : out.keys.Nodup := by
  have : out.map (fun kv => stripAttr targets kv.1) = out.keys.map (stripAttr targets) := by
    simp [Dict.keys]
  rw [this] at h
  exact nodup_of_map_nodup _ _ h

/-- Stripping a dict whose stripped keys are distinct and have no suffix left. -/
theorem strip_of_nodup (targets : List Str) (hg : GoodTargets targets) (out : ADict)
    (h : (out.map fun kv => stripAttr targets kv.1).Nodup)
    (hs : ∀ kv ∈ out, ¬ Suffixed targets (stripAttr targets kv.1)) :
    strip targets out = out.map fun kv => (stripAttr targets kv.1, kv.2) := by
  unfold strip
  have hk : (out.filter fun kv => decide (kv.1 ∉
      (out.keys.filter (isTargetSpecific targets)).map (stripAttr targets))) = out := by
    rw [List.filter_eq_self]
    intro kv hkv
    simp only [decide_eq_true_eq]
    intro hm
    simp only [List.mem_map, List.mem_filter] at hm
    obtain ⟨k, ⟨hk1, hk2⟩, hk3⟩ := hm
    -- `kv.1` is the stripped form of another key `k`
    simp only [Dict.keys, List.mem_map] at hk1
    obtain ⟨kv', hkv', rfl⟩ := hk1
    have hns : ¬ Suffixed targets kv.1 := by rw [← hk3]; exact hs kv' hkv'
    have e : stripAttr targets kv'.1 = stripAttr targets kv.1 := by
      rw [stripAttr_not_suffixed _ _ hns, hk3]
    have hne : kv' ≠ kv := by
      rintro rfl
      rw [isTargetSpecific_iff _ hg] at hk2
      exact hns hk2
    -- two different items with the same stripped key
    exact absurd e (by
      intro e
      have := List.nodup_iff_pairwise_ne.1 h
      clear hk2 hk3 hs
      induction out with
      | nil => simp at hkv
      | cons o out ih =>
        simp only [List.map_cons, List.pairwise_cons, List.mem_map] at this
        simp only [List.mem_cons] at hkv hkv'
        rcases hkv with rfl | hkv
        · rcases hkv' with rfl | hkv'
          · exact hne rfl
          · exact this.1 _ ⟨kv', hkv', rfl⟩ e.symm
        · rcases hkv' with rfl | hkv'
          · exact this.1 _ ⟨kv, hkv, rfl⟩ e
          · exact ih (by simp only [List.map_cons, List.nodup_cons] at h; exact h.2) hkv hkv' this.2)
  simp only [hk]
  exact foldl_set_map (stripAttr targets) out h


theorem order_name (d : ADict) : (fun x => order d (.name x)) = fun s => d.keys.idxOf s := rfl

theorem sortedBy_nodup {α : Type} (key : α → Nat) (l : List α) (h : l.Nodup) :
    (sortedBy key l).Nodup := (sortedBy_perm key l).nodup_iff.2 h

theorem update_nil_of_nodup {κ α : Type} [DecidableEq κ] (items : Dict κ α)
    (h : items.keys.Nodup) : Dict.update [] items = items := by
  have := Dict.update_append_new ([] : Dict κ α) items (by simpa [Dict.keys] using h)
  simpa using this

/-- `filter` for plain names, given the order in which they are looked up. -/
theorem filter_plain_aux (targets : List Str) (hg : GoodTargets targets) (d : ADict) (T : Str)
    (hT : T ∈ targets) (names : List Str) (hn : names.Nodup)
    (hs : ∀ n ∈ names, ¬ Suffixed targets n) :
    strip targets (Dict.update [] (((names.map Query.name).filter
      (· ∉ removeAttrs targets (names.map Query.name) (some T))).filterMap
        fun q => findItem targets d q (some T))) =
    names.filterMap fun n => (valueFor d T n).map fun v => (n, v) := by
  have hs' : ∀ n ∈ names, isTargetSpecific targets n = false :=
    fun n h => (isTargetSpecific_false_iff _ hg n).2 (hs n h)
  rw [removeAttrs_plain _ _ _ hs']
  have e0 : (names.map Query.name).filter (fun x => decide (x ∉ ([] : List Query))) = names.map Query.name := by
    simp
  rw [e0, List.filterMap_map]
  have e1 : ((fun q => findItem targets d q (some T)) ∘ Query.name) = itemFor d T := by
    funext n
    simp only [Function.comp, findItem_name _ _ _ _ (hg T hT), itemFor]
  rw [e1]
  obtain ⟨h1, h2⟩ := nodup_filterMap_itemFor targets hg d T hT names hn hs
  rw [update_nil_of_nodup _ (keys_nodup_of_strip _ _ h1), h2]
  apply strip_of_nodup _ hg _ h1
  intro kv hkv
  simp only [List.mem_filterMap] at hkv
  obtain ⟨n, hnm, hn'⟩ := hkv
  have : stripAttr targets kv.1 = n := by
    rcases (itemFor_key _ _ _ _ hn').1 with h | h
    · rw [h, stripAttr_suffixed _ hg _ _ hT]
    · rw [h, stripAttr_not_suffixed _ _ (hs n hnm)]
  rw [this]
  exact hs n hnm

theorem pairwise_idxOf' {α : Type} [BEq α] [LawfulBEq α] (l : List α) (h : l.Nodup) :
    l.Pairwise (fun a b => l.idxOf a ≤ l.idxOf b) := by
  rw [List.pairwise_iff_getElem]
  intro i j hi hj hij
  rw [h.idxOf_getElem i hi, h.idxOf_getElem j hj]
  omega

theorem sortedBy_keys (d : ADict) (h : d.keys.Nodup) :
    sortedBy (order d) (d.keys.map Query.name) = d.keys.map Query.name := by
  rw [sortedBy_map]
  congr 1
  apply sortedBy_of_sorted
  have := pairwise_idxOf' d.keys h
  simpa [order] using this

theorem uniq_of_nodup {α : Type} [DecidableEq α] (l : List α) (h : l.Nodup) :
    Lists.uniq id l = l := by
  have : ∀ seen : List α, (∀ a ∈ l, a ∉ seen) → Lists.uniqLoop id seen l = l := by
    induction l with
    | nil => intro _ _; rfl
    | cons a l ih =>
      intro seen hs
      simp at h
      have ha : ¬ (id a) ∈ seen := hs a (by simp)
      simp only [Lists.uniqLoop, ha, if_false]
      rw [ih h.2]
      intro b hb
      simp
      exact ⟨by rintro rfl; exact h.1 hb, hs b (by simp [hb])⟩
  exact this [] (by simp)

/-- Which entries survive when everything is filtered for a target: those of that
target, and the general ones without an entry for that target. -/
def keepFor (targets : List Str) (d : ADict) (T : Str) (k : Str) : Bool :=
  if isTargetSpecific targets k then endsWith k ('.' :: T) else !(d.has (k ++ '.' :: T))

theorem mem_removeAttrs (targets : List Str) (hg : GoodTargets targets) (d : ADict) (T : Str)
    (hT : T ∈ targets) (hd : ∀ k ∈ d.keys, ¬ Suffixed targets (stripAttr targets k))
    (k : Str) (hk : k ∈ d.keys) :
    Query.name k ∈ removeAttrs targets (d.keys.map .name) (some T) ↔ keepFor targets d T k = false := by
  simp only [removeAttrs, List.mem_filterMap, List.mem_map]
  unfold keepFor
  constructor
  · rintro ⟨q, ⟨k', hk', rfl⟩, h⟩
    simp only at h
    split at h
    · rename_i hsp
      split at h
      · rename_i he
        simp [stripQuery] at h
        obtain ⟨n, hn⟩ := (endsWith_iff _ _).1 he
        have hnk : n = k := by rw [← h, hn, stripAttr_suffixed _ hg _ _ hT]
        subst hnk
        have : ¬ Suffixed targets n := by
          have := hd k' hk'
          rwa [hn, stripAttr_suffixed _ hg _ _ hT] at this
        rw [if_neg (by rw [isTargetSpecific_iff _ hg]; exact this)]
        simp only [Bool.not_eq_false']
        rw [Dict.has_iff, ← hn]; exact hk'
      · rename_i he
        simp at h
        subst h
        rw [if_pos hsp]
        simpa using he
    · simp at h
  · intro h
    split at h
    · rename_i hsp
      exact ⟨.name k, ⟨k, hk, rfl⟩, by simp [hsp, h]⟩
    · rename_i hsp
      simp only [Bool.not_eq_false'] at h
      rw [Dict.has_iff] at h
      refine ⟨.name (k ++ '.' :: T), ⟨_, h, rfl⟩, ?_⟩
      have h1 : isTargetSpecific targets (k ++ '.' :: T) = true :=
        (isTargetSpecific_iff _ hg _).2 ⟨T, hT, k, rfl⟩
      have h2 : endsWith (k ++ '.' :: T) ('.' :: T) = true := (endsWith_iff _ _).2 ⟨k, rfl⟩
      simp [h1, h2, stripQuery, stripAttr_suffixed _ hg _ _ hT]

theorem findItem_keep (targets : List Str) (hg : GoodTargets targets) (d : ADict) (T : Str)
    (hT : T ∈ targets) (hd : ∀ k ∈ d.keys, ¬ Suffixed targets (stripAttr targets k))
    (k : Str) (v : AVal) (hk : d.get? k = some v) (hkeep : keepFor targets d T k = true) :
    findItem targets d (.name k) (some T) = some (k, v) := by
  rw [findItem_name _ _ _ _ (hg T hT)]
  have : d.get? (k ++ '.' :: T) = none := by
    rw [Dict.get?_eq_none_iff]
    intro hm
    unfold keepFor at hkeep
    split at hkeep
    · rename_i hsp
      rw [isTargetSpecific_iff _ hg] at hsp
      apply hd _ hm
      rw [stripAttr_suffixed _ hg _ _ hT]
      exact hsp
    · have := (Dict.has_iff d (k ++ '.' :: T)).2 hm
      simp [this] at hkeep
  rw [this, hk]
  rfl

theorem filterMap_findItem_keep (targets : List Str) (hg : GoodTargets targets) (d : ADict)
    (T : Str) (hT : T ∈ targets) (hd : ∀ k ∈ d.keys, ¬ Suffixed targets (stripAttr targets k))
    (l : ADict) (hl : ∀ kv ∈ l, d.get? kv.1 = some kv.2) :
    ((l.keys.map Query.name).filter
      (· ∉ removeAttrs targets (d.keys.map Query.name) (some T))).filterMap
        (fun q => findItem targets d q (some T)) = l.filter fun kv => keepFor targets d T kv.1 := by
  induction l with
  | nil => rfl
  | cons kv l ih =>
    have ih := ih (fun kv h => hl kv (by simp [h]))
    have hkv := hl kv (by simp)
    have hk : kv.1 ∈ d.keys := by rw [← Dict.get?_isSome_iff, hkv]; rfl
    simp only [Dict.keys_cons, List.map_cons, List.filter_cons]
    have hm := mem_removeAttrs targets hg d T hT hd kv.1 hk
    cases hb : keepFor targets d T kv.1 with
    | false =>
      have : Query.name kv.1 ∈ removeAttrs targets (d.keys.map .name) (some T) := hm.2 hb
      simp only [this, not_true_eq_false, decide_false, Bool.false_eq_true, if_false]
      exact ih
    | true =>
      have : Query.name kv.1 ∉ removeAttrs targets (d.keys.map .name) (some T) := by
        intro h; rw [hm.1 h] at hb; simp at hb
      simp only [this, not_false_eq_true, decide_true, if_true]
      rw [List.filterMap_cons, findItem_keep targets hg d T hT hd kv.1 kv.2 hkv hb]
      simp only [ih]

theorem nodup_strip_keep (targets : List Str) (hg : GoodTargets targets) (d : ADict) (T : Str)
    (hT : T ∈ targets) (hn : d.keys.Nodup) :
    ((d.filter fun kv => keepFor targets d T kv.1).map fun kv => stripAttr targets kv.1).Nodup := by
  have hinj : ∀ k ∈ d.keys, ∀ k' ∈ d.keys, keepFor targets d T k = true →
      keepFor targets d T k' = true → stripAttr targets k = stripAttr targets k' → k = k' := by
    intro k hk k' hk' h h' e
    unfold keepFor at h h'
    split at h <;> rename_i hs
    · obtain ⟨n, rfl⟩ := (endsWith_iff _ _).1 h
      rw [stripAttr_suffixed _ hg _ _ hT] at e
      split at h'
      · obtain ⟨n', rfl⟩ := (endsWith_iff _ _).1 h'
        rw [stripAttr_suffixed _ hg _ _ hT] at e
        rw [e]
      · rename_i hs'
        rw [isTargetSpecific_iff _ hg] at hs'
        rw [stripAttr_not_suffixed _ _ hs'] at e
        subst e
        have := (Dict.has_iff d _).2 hk
        simp [this] at h'
    · rw [isTargetSpecific_iff _ hg] at hs
      rw [stripAttr_not_suffixed _ _ hs] at e
      split at h'
      · obtain ⟨n', rfl⟩ := (endsWith_iff _ _).1 h'
        rw [stripAttr_suffixed _ hg _ _ hT] at e
        subst e
        have := (Dict.has_iff d _).2 hk'
        simp [this] at h
      · rename_i hs'
        rw [isTargetSpecific_iff _ hg] at hs'
        rw [stripAttr_not_suffixed _ _ hs'] at e
        exact e
  have : ∀ l : ADict, l.keys.Nodup → (∀ k ∈ l.keys, k ∈ d.keys) →
      ((l.filter fun kv => keepFor targets d T kv.1).map fun kv => stripAttr targets kv.1).Nodup := by
    intro l
    induction l with
    | nil => intro _ _; simp
    | cons kv l ih =>
      intro hnl hsub
      simp at hnl
      have ih := ih hnl.2 (fun k hk => hsub k (by simp [hk]))
      rw [List.filter_cons]
      split
      · rename_i hkeep
        simp only [List.map_cons, List.nodup_cons]
        refine ⟨?_, ih⟩
        intro hm
        simp only [List.mem_map, List.mem_filter] at hm
        obtain ⟨kv', ⟨h1, h2⟩, h3⟩ := hm
        have hk' : kv'.1 ∈ Dict.keys l := List.mem_map_of_mem h1
        have := hinj kv'.1 (hsub _ (by simp [hk'])) kv.1 (hsub _ (by simp)) h2 hkeep h3
        rw [this] at hk'
        exact hnl.1 hk'
      · exact ih
  exact this d hn (fun k hk => hk)

/-! ### Attribute strings -/

theorem stripChar_no (q : Char) (s : Str) (h1 : ∀ r, s ≠ q :: r) (h2 : ∀ r, s ≠ r ++ [q]) :
    stripChar q s = s := by
  have d : ∀ l : Str, (∀ r, l ≠ q :: r) → l.dropWhile (· = q) = l := by
    intro l hl
    cases l with
    | nil => rfl
    | cons c l =>
      simp [List.dropWhile_cons]
      intro e; exact absurd (by rw [e]) (hl l)
  unfold stripChar
  rw [d s h1, d s.reverse]
  · simp
  · intro r hr
    have := congrArg List.reverse hr
    simp at this
    exact h2 r.reverse this

theorem stripChar_not_mem (q : Char) (s : Str) (h : q ∉ s) : stripChar q s = s := by
  apply stripChar_no
  · rintro r rfl; simp at h
  · rintro r rfl; simp at h

theorem stripChar_wrapped (q : Char) (s : Str) (h : q ∉ s) : stripChar q (q :: s ++ [q]) = s := by
  cases s with
  | nil => simp [stripChar, List.dropWhile_cons]
  | cons c s =>
    have hc : ¬ c = q := by rintro rfl; simp at h
    have e1 : (q :: (c :: s) ++ [q]).dropWhile (· = q) = c :: s ++ [q] := by
      simp [List.dropWhile_cons, hc]
    unfold stripChar
    rw [e1]
    have e2 : (c :: s ++ [q]).reverse = q :: (c :: s).reverse := by simp
    rw [e2]
    have e3 : (q :: (c :: s).reverse).dropWhile (· = q) = (c :: s).reverse.dropWhile (· = q) := by
      simp [List.dropWhile_cons]
    rw [e3]
    have h' : q ∉ (c :: s).reverse := by rw [List.mem_reverse]; exact h
    have e4 : (c :: s).reverse.dropWhile (· = q) = (c :: s).reverse := by
      generalize (c :: s).reverse = l at h'
      cases l with
      | nil => rfl
      | cons x l => simp at h'; simp [List.dropWhile_cons]; intro e; exact absurd e.symm h'.1
    rw [e4]; simp

theorem run1_spec (p : Char → Bool) (w r : Str) (hw : w ≠ []) (h : ∀ c ∈ w, p c = true)
    (hr : ∀ x t, r = x :: t → p x = false) : run1 p (w ++ r) = some (w, r) := by
  unfold run1
  rw [Parser.span_eq, (Parser.takeWhile_append_stop p w r h hr).1,
    (Parser.takeWhile_append_stop p w r h hr).2]
  cases w with
  | nil => exact absurd rfl hw
  | cons => rfl

theorem run1_none (p : Char → Bool) (c : Char) (r : Str) (h : p c = false) :
    run1 p (c :: r) = none := by
  unfold run1
  rw [Parser.span_eq]
  simp [List.takeWhile_cons, h]

theorem quoted_spec (q : Char) (body r : Str) (h : q ∉ body) :
    quoted q (q :: body ++ q :: r) = some (q :: body ++ [q], r) := by
  unfold quoted
  have := Parser.takeWhile_append_stop (fun c => decide (c ≠ q)) body (q :: r)
    (by intro x hx; simp; rintro rfl; exact h hx) (by intro x t e; simp at e; simp [e.1])
  simp only [List.cons_append, if_true]
  rw [Parser.span_eq, this.1, this.2]

theorem quoted_none (q : Char) (s : Str) (h : ∀ r, s ≠ q :: r) : quoted q s = none := by
  cases s with
  | nil => rfl
  | cons c s =>
    have : ¬ c = q := by rintro rfl; exact h s rfl
    simp [quoted, this]

section
variable (isWord isSpace : Char → Bool) (hc : Classes isWord isSpace)

/-- What may follow a spelled entry: nothing, or a space and something that does
not start with a space or `=`. -/
def Follows (isSpace : Char → Bool) (r : Str) : Prop :=
  r = [] ∨ ∃ c t, r = ' ' :: c :: t ∧ isSpace c = false ∧ c ≠ '='

include hc

theorem matchKeyValue_of (k v tok r : Str) (hk : k ≠ []) (hkc : ∀ c ∈ k, keyChar isWord c = true)
    (hv : quotedOr (fun c => !isSpace c && c ≠ ']') (tok ++ r) = some (tok, r))
    (hsp : ∀ c t, tok ++ r = c :: t → isSpace c = false) :
    matchKeyValue isWord isSpace (k ++ '=' :: tok ++ r) = some (.keyValue k tok, r) := by
  unfold matchKeyValue
  have e1 : run1 (keyChar isWord) (k ++ ('=' :: (tok ++ r))) = some (k, '=' :: (tok ++ r)) := by
    apply run1_spec _ _ _ hk hkc
    intro x t e
    simp at e
    rw [← e.1]
    simp [keyChar, hc.eq_word]
  have e2 : ('=' :: (tok ++ r)).dropWhile isSpace = '=' :: (tok ++ r) := by
    simp [List.dropWhile_cons, hc.eq_space]
  have e3 : (tok ++ r).dropWhile isSpace = tok ++ r := by
    cases h : tok ++ r with
    | nil => rfl
    | cons c t => simp [List.dropWhile_cons, hsp c t h]
  simp only [List.append_assoc, List.cons_append, e1, Option.bind_eq_bind, Option.bind_some]
  simp only [e2]
  simp only [e3, hv, Option.bind_some]

theorem matchKeyValue_position (p r : Str) (hp : p ≠ [])
    (hpc : ∀ c ∈ p, isSpace c = false ∧ c ∉ [',', '[', ']', '"', '\'', '=']) (hr : Follows isSpace r) :
    matchKeyValue isWord isSpace (p ++ r) = none := by
  unfold matchKeyValue
  unfold run1
  rw [Parser.span_eq]
  cases hw : (p ++ r).takeWhile (keyChar isWord) with
  | nil => rfl
  | cons c w =>
    simp only [Option.bind_eq_bind, Option.bind_some]
    -- the run of key characters ends inside `p` or at its end
    have hd : ∀ t, ((p ++ r).dropWhile (keyChar isWord)).dropWhile isSpace ≠ '=' :: t := by
      have hrk : ∀ x t, r = x :: t → keyChar isWord x = false := by
        intro x t e
        rcases hr with rfl | ⟨c, t', rfl, _⟩
        · simp at e
        · simp at e
          rw [← e.1]
          have h1 := hc.disjoint ' ' hc.space
          simp [keyChar, h1]
      clear hw
      induction p with
      | nil => simp at hp
      | cons a p ih =>
        intro t
        by_cases hka : keyChar isWord a = true
        · simp only [List.cons_append, List.dropWhile_cons, hka, if_true]
          cases p with
          | nil =>
            simp only [List.nil_append]
            rcases hr with rfl | ⟨c', t', rfl, hc1, hc2⟩
            · simp
            · have h1 := hc.disjoint ' ' hc.space
              have : keyChar isWord ' ' = false := by simp [keyChar, h1]
              simp only [List.dropWhile_cons, this, Bool.false_eq_true, if_false, hc.space, if_true, hc1]
              simp
              intro e; exact absurd e hc2
          | cons b p =>
            exact ih (by simp) (fun c hc' => hpc c (by simp [hc'])) t
        · have ha := hpc a (by simp)
          simp only [List.cons_append, List.dropWhile_cons, hka, if_false, ha.1, Bool.false_eq_true]
          simp
          intro e
          simp [e] at ha
    split
    · rename_i r' heq; exact absurd heq (hd r')
    · rfl

theorem quotedOr_run (p : Char → Bool) (w r : Str) (hw : w ≠ [])
    (h1 : ∀ t, w ≠ '"' :: t) (h2 : ∀ t, w ≠ '\'' :: t)
    (h : ∀ c ∈ w, p c = true) (hr : ∀ x t, r = x :: t → p x = false) :
    quotedOr p (w ++ r) = some (w, r) := by
  unfold quotedOr
  cases w with
  | nil => exact absurd rfl hw
  | cons c w =>
    rw [quoted_none '"', quoted_none '\'', run1_spec p (c :: w) r (by simp) h hr]
    · rfl
    · intro t e; simp at e; exact h2 w (by rw [e.1])
    · intro t e; simp at e; exact h1 w (by rw [e.1])

/-- A spelled entry is read as one token, which gives back the entry. -/
theorem token_spell (targets : List Str) (posType : Str → PType) (e : (Str × AVal) × Style)
    (he : CanSpell isWord isSpace targets posType e) (r : Str) (hr : Follows isSpace r) :
    ∃ c cs t, spell e ++ r = c :: cs ∧ isSpace c = false ∧ c ≠ '=' ∧
      (matchKeyValue isWord isSpace (c :: cs)).or (matchPosition isSpace (c :: cs)) = some (t, r) ∧
      entry targets posType t = e.1 := by
  have hrs : ∀ x t, r = x :: t → isSpace x = true := by
    intro x t e
    rcases hr with rfl | ⟨c, t', rfl, _⟩
    · simp at e
    · simp at e; rw [← e.1]; exact hc.space
  have keyhead : ∀ (k : Str), k ≠ [] → (∀ c ∈ k, keyChar isWord c = true) →
      ∃ c k', k = c :: k' ∧ isSpace c = false ∧ c ≠ '=' := by
    intro k hk hkc
    cases k with
    | nil => exact absurd rfl hk
    | cons c k' =>
      refine ⟨c, k', rfl, ?_, ?_⟩
      · have := hkc c (by simp)
        cases hs : isSpace c with
        | false => rfl
        | true =>
          have hw := hc.disjoint c hs
          simp [keyChar, hw] at this
          subst this
          rw [hc.dot_space] at hs; simp at hs
      · rintro rfl
        have := hkc '=' (by simp)
        simp [keyChar, hc.eq_word] at this
  obtain ⟨⟨k, v⟩, st⟩ := e
  cases v with
  | str v =>
    obtain ⟨hk, hkc, hv⟩ := he
    have hkc : ∀ c ∈ k, keyChar isWord c = true := fun c hc => by simpa [keyChar] using hkc c hc
    obtain ⟨c, k', rfl, hcs, hce⟩ := keyhead k hk hkc
    have main : ∀ tok, spell ((c :: k', .str v), st) = (c :: k') ++ '=' :: tok →
        quotedOr (fun c => !isSpace c && c ≠ ']') (tok ++ r) = some (tok, r) →
        (∀ x t, tok ++ r = x :: t → isSpace x = false) →
        stripChar '\'' (stripChar '"' tok) = v →
        ∃ c_1 cs t, spell ((c :: k', .str v), st) ++ r = c_1 :: cs ∧ isSpace c_1 = false ∧
          c_1 ≠ '=' ∧ (matchKeyValue isWord isSpace (c_1 :: cs)).or
            (matchPosition isSpace (c_1 :: cs)) = some (t, r) ∧
          entry targets posType t = (c :: k', .str v) := by
      intro tok hs hq hsp hstrip
      have hm := matchKeyValue_of isWord isSpace hc (c :: k') v tok r hk hkc hq hsp
      refine ⟨c, k' ++ '=' :: tok ++ r, .keyValue (c :: k') tok, by rw [hs]; simp, hcs, hce, ?_, ?_⟩
      · simp only [List.cons_append] at hm ⊢
        rw [hm]; rfl
      · simp [entry, hstrip]
    cases st with
    | bare =>
      obtain ⟨hv1, hv2⟩ := hv
      have n1 : '"' ∉ v := fun h => (hv2 _ h).2.2.2 rfl
      have n2 : '\'' ∉ v := fun h => (hv2 _ h).2.2.1 rfl
      apply main v rfl
      · apply quotedOr_run isWord isSpace hc _ v r hv1
        · rintro t rfl; simp at n1
        · rintro t rfl; simp at n2
        · intro c hcm; have := hv2 c hcm; simp [this]
        · intro x t e; simp [hrs x t e]
      · intro x t e
        cases v with
        | nil => exact absurd rfl hv1
        | cons a v => simp at e; rw [← e.1]; exact (hv2 a (by simp)).1
      · rw [stripChar_not_mem _ _ n1, stripChar_not_mem _ _ n2]
    | single =>
      have hv : '\'' ∉ v := hv
      apply main ('\'' :: v ++ ['\'']) (by simp [spell])
      · unfold quotedOr
        rw [quoted_none '"' _ (by simp)]
        have := quoted_spec '\'' v r hv
        simp only [List.cons_append, List.append_assoc, List.nil_append] at this ⊢
        rw [this]; rfl
      · intro x t e; simp at e; rw [← e.1]; exact hc.sq_space
      · rw [stripChar_no '"', stripChar_wrapped _ _ hv]
        · simp
        · intro r' e
          have := congrArg (fun l => l.reverse.head?) e
          simp at this
    | double =>
      obtain ⟨hv1, hv2, hv3⟩ := hv
      apply main ('"' :: v ++ ['"']) (by simp [spell])
      · unfold quotedOr
        have := quoted_spec '"' v r hv1
        simp only [List.cons_append, List.append_assoc, List.nil_append] at this ⊢
        rw [this]; rfl
      · intro x t e; simp at e; rw [← e.1]; exact hc.dq_space
      · rw [stripChar_wrapped _ _ hv1, stripChar_no _ _ hv2 hv3]
  | pos t =>
    obtain ⟨hk, hkc, ht⟩ := he
    have ht := ht _ (stripAttr_without targets k)
    have hsp : spell ((k, AVal.pos t), st) = k := by cases st <;> rfl
    rw [hsp]
    have hmk := matchKeyValue_position isWord isSpace hc k r hk hkc hr
    have hmp : matchPosition isSpace (k ++ r) = some (.position k, r) := by
      unfold matchPosition
      rw [quotedOr_run isWord isSpace hc _ k r hk]
      · rfl
      · rintro t rfl; have := (hkc '"' (by simp)).2; simp at this
      · rintro t rfl; have := (hkc '\'' (by simp)).2; simp at this
      · intro c hcm
        have := hkc c hcm
        simp at this
        simp [this]
      · intro x t e; simp [hrs x t e]
    cases k with
    | nil => exact absurd rfl hk
    | cons c k =>
      have h1 := hkc c (by simp)
      refine ⟨c, k ++ r, .position (c :: k), rfl, h1.1, ?_, ?_, ?_⟩
      · rintro rfl; simp at h1
      · simp only [List.cons_append] at hmk hmp
        rw [hmk, hmp]; rfl
      · have n1 : '"' ∉ c :: k := fun h => by have := (hkc _ h).2; simp at this
        have n2 : '\'' ∉ c :: k := fun h => by have := (hkc _ h).2; simp at this
        simp only [entry]
        rw [stripChar_not_mem _ _ n2, stripChar_not_mem _ _ n1, ht]

theorem tokens_spellAll (targets : List Str) (posType : Str → PType)
    (es : List ((Str × AVal) × Style))
    (he : ∀ e ∈ es, CanSpell isWord isSpace targets posType e) (fuel : Nat)
    (hf : (spellAll es).length < fuel) :
    (tokens isWord isSpace fuel (spellAll es)).map (entry targets posType) = es.map Prod.fst := by
  have hhead : ∀ es : List ((Str × AVal) × Style), es ≠ [] →
      (∀ e ∈ es, CanSpell isWord isSpace targets posType e) →
      ∃ c t, spellAll es = c :: t ∧ isSpace c = false ∧ c ≠ '=' := by
    intro es hne h
    cases es with
    | nil => exact absurd rfl hne
    | cons e es =>
      obtain ⟨c, cs, t, e1, e2, e3, _⟩ := token_spell isWord isSpace hc targets posType e
        (h e (by simp)) [] (.inl rfl)
      simp at e1
      cases es with
      | nil => exact ⟨c, cs, by simpa [spellAll] using e1, e2, e3⟩
      | cons e' es => exact ⟨c, cs ++ ' ' :: spellAll (e' :: es), by simp [spellAll, e1], e2, e3⟩
  induction es generalizing fuel with
  | nil => cases fuel <;> simp [spellAll, tokens]
  | cons e es ih =>
    have ih := ih (fun e h => he e (by simp [h]))
    cases es with
    | nil =>
      obtain ⟨c, cs, t, e1, _, _, e4, e5⟩ := token_spell isWord isSpace hc targets posType e
        (he e (by simp)) [] (.inl rfl)
      simp only [spellAll] at hf ⊢
      simp at e1
      rw [e1] at hf ⊢
      cases fuel with
      | zero => omega
      | succ fuel =>
        simp only [tokens, e4]
        cases fuel <;> simp [tokens, e5]
    | cons e' es =>
      obtain ⟨c', t', hh, hs1, hs2⟩ := hhead (e' :: es) (by simp) (fun e h => he e (by simp at h ⊢; exact .inr h))
      obtain ⟨c, cs, t, e1, _, _, e4, e5⟩ := token_spell isWord isSpace hc targets posType e
        (he e (by simp)) (' ' :: spellAll (e' :: es)) (.inr ⟨c', t', by rw [hh], hs1, hs2⟩)
      simp only [spellAll] at hf ⊢
      have e1' : spell e ++ ' ' :: spellAll (e' :: es) = c :: cs := e1
      rw [e1'] at hf ⊢
      have hl := congrArg List.length e1'
      obtain ⟨c0, cs0, _, he0, _⟩ := token_spell isWord isSpace hc targets posType e
        (he e (by simp)) [] (.inl rfl)
      have hl0 : 0 < (spell e).length := by simp at he0; rw [he0]; simp
      simp at hl
      cases fuel with
      | zero => omega
      | succ fuel =>
        simp only [tokens, e4, List.map_cons, e5]
        simp at hf
        cases fuel with
        | zero => omega
        | succ fuel =>
          have hsk : (matchKeyValue isWord isSpace (' ' :: spellAll (e' :: es))).or
              (matchPosition isSpace (' ' :: spellAll (e' :: es))) = none := by
            have h1 : keyChar isWord ' ' = false := by
              have := hc.disjoint ' ' hc.space
              simp [keyChar, this]
            simp only [matchKeyValue, matchPosition, quotedOr]
            rw [run1_none _ _ _ h1, quoted_none '"' _ (by simp), quoted_none '\'' _ (by simp),
              run1_none _ _ _ (by simp [hc.space])]
            rfl
          simp only [tokens, hsk]
          rw [ih fuel (by omega)]
          rfl

end

end Verif.Attrs
