import Verif.Model.Utils
import Verif.Model.Parser
import Verif.Lemmas.Strings
import Verif.Lemmas.Dict
import Verif.Lemmas.Lists
import Verif.Lemmas.Parser
import Mathlib.Data.List.Induction
import Mathlib.Data.List.Chain

/-!
# C37, C38, C39, C47: string and dict utilities
-/

set_option linter.unusedSimpArgs false
set_option linter.unusedVariables false

namespace Verif.Utils

open Verif

/-! ### C47: common prefixes -/

theorem chopLoop_spec (strings : List Str) (n : Nat) (base : Str) (hn : base.length ≤ n)
    (hs : strings ≠ []) :
    (∀ x ∈ strings, chopLoop strings n base <+: x) ∧ chopLoop strings n base <+: base ∧
    ∀ p, p <+: base → (∀ x ∈ strings, p <+: x) → p <+: chopLoop strings n base := by
  induction n generalizing base with
  | zero =>
    have : base = [] := List.length_eq_zero_iff.1 (by omega)
    subst this
    exact ⟨fun x _ => List.nil_prefix, List.prefix_refl _, fun p hp _ => hp⟩
  | succ n ih =>
    simp only [chopLoop]
    split
    · rename_i hall
      refine ⟨?_, List.prefix_refl _, fun p hp _ => hp⟩
      intro x hx
      have := List.all_eq_true.1 hall x hx
      exact List.isPrefixOf_iff_prefix.1 this
    · rename_i hall
      obtain ⟨h1, h2, h3⟩ := ih base.dropLast (by simp; omega)
      refine ⟨h1, h2.trans (List.dropLast_prefix _), ?_⟩
      intro p hp hpx
      apply h3 p _ hpx
      have hne : p ≠ base := by
        rintro rfl
        apply hall
        rw [List.all_eq_true]
        intro x hx
        exact List.isPrefixOf_iff_prefix.2 (hpx x hx)
      obtain ⟨t, rfl⟩ := hp
      have ht : t ≠ [] := by rintro rfl; simp at hne
      rw [List.dropLast_append_of_ne_nil ht]
      exact List.prefix_append _ _

/-- C47. `find_basestring` gives the longest common prefix; it raises for an empty list only. -/
theorem C47_longest_common_prefix (strings : List Str) :
    (findBasestring strings = none ↔ strings = []) ∧
    ∀ b, findBasestring strings = some b →
      (∀ x ∈ strings, b <+: x) ∧ ∀ p, (∀ x ∈ strings, p <+: x) → p <+: b := by
  cases strings with
  | nil => simp [findBasestring]
  | cons s ss =>
    refine ⟨by simp [findBasestring], ?_⟩
    rintro b hb
    simp [findBasestring] at hb
    obtain ⟨h1, _, h3⟩ := chopLoop_spec (s :: ss) s.length s (by omega) (by simp)
    rw [← hb]
    exact ⟨h1, fun p hp => h3 p (hp s (by simp)) hp⟩

example : findBasestring ["tester".toList, "test".toList, "tent".toList] = some "te".toList := by decide

end Verif.Utils

namespace Verif.Parser

/-- The contents of a list as single characters and other (not empty) items. -/
def atoms : List Val → List (Char ⊕ Val)
  | [] => []
  | .str s :: l => s.map Sum.inl ++ atoms l
  | v :: l => (if v.truthy then [Sum.inr (groupStrings v)] else []) ++ atoms l

def Val.isStr : Val → Bool
  | .str _ => true
  | _ => false

/-- The same for a list that is grouped already. -/
def atomsGrouped : List Val → List (Char ⊕ Val)
  | [] => []
  | .str s :: l => s.map Sum.inl ++ atomsGrouped l
  | v :: l => Sum.inr v :: atomsGrouped l

theorem joinAdj_atoms (l : List Val) : atomsGrouped (joinAdj l) = atomsGrouped l := by
  induction l with
  | nil => rfl
  | cons v l ih =>
    cases v with
    | str s =>
      simp only [joinAdj, atomsGrouped]
      rw [← ih]
      split
      · rename_i t r h; rw [h]; simp [atomsGrouped]
      · rfl
    | tag n a b c => simp [joinAdj, atomsGrouped, ih]
    | list l' => simp [joinAdj, atomsGrouped, ih]

theorem groupItems_atoms (l : List Val) : atomsGrouped (groupItems l) = atoms l := by
  induction l with
  | nil => rfl
  | cons v l ih =>
    cases v with
    | str s =>
      cases s with
      | nil => simp [groupItems, Val.truthy, atoms, ih]
      | cons c s => simp [groupItems, Val.truthy, atoms, atomsGrouped, groupStrings, ih]
    | tag n a b c =>
      simp only [groupItems, atoms]
      split
      · simp [groupStrings, atomsGrouped, ih]
      · simp [ih]
    | list l' =>
      simp only [groupItems, atoms]
      split
      · simp [groupStrings, atomsGrouped, ih]
      · simp [ih]

theorem joinAdj_chain (l : List Val) (h : ∀ v ∈ l, v ≠ .str []) :
    (joinAdj l).IsChain (fun v w => ¬ (v.isStr = true ∧ w.isStr = true)) ∧ ∀ v ∈ joinAdj l, v ≠ .str [] := by
  induction l with
  | nil => exact ⟨List.IsChain.nil, by simp [joinAdj]⟩
  | cons v l ih =>
    obtain ⟨h1, h2⟩ := ih (fun x hx => h x (by simp [hx]))
    have other : v.isStr = false → joinAdj (v :: l) = v :: joinAdj l := by
      intro hv; cases v <;> simp_all [joinAdj, Val.isStr]
    cases hv : v.isStr with
    | false =>
      rw [other hv]
      refine ⟨?_, ?_⟩
      · rw [List.isChain_cons]
        exact ⟨by intro w _; simp [hv], h1⟩
      · intro x hx
        rcases List.mem_cons.1 hx with rfl | hx
        · exact h _ (by simp)
        · exact h2 x hx
    | true =>
      cases v with
      | str s =>
        have hs : s ≠ [] := by rintro rfl; exact h _ (by simp) rfl
        simp only [joinAdj]
        split
        · rename_i t r hr
          rw [hr] at h1 h2
          rw [List.isChain_cons] at h1 ⊢
          refine ⟨⟨?_, h1.2⟩, ?_⟩
          · intro w hw
            have := h1.1 w hw
            simpa [Val.isStr] using this
          · intro x hx
            rcases List.mem_cons.1 hx with rfl | hx
            · simp [hs]
            · exact h2 x (by simp [hx])
        · rename_i r hr
          refine ⟨?_, ?_⟩
          · rw [List.isChain_cons]
            refine ⟨?_, h1⟩
            intro w hw hh
            cases hj : joinAdj l with
            | nil => rw [hj] at hw; simp at hw
            | cons y ys =>
              rw [hj] at hw
              simp at hw
              subst hw
              cases y with
              | str t => exact hr t ys hj
              | tag => simp [Val.isStr] at hh
              | list => simp [Val.isStr] at hh
          · intro x hx
            rcases List.mem_cons.1 hx with rfl | hx
            · simp [hs]
            · exact h2 x hx
      | tag => simp [Val.isStr] at hv
      | list => simp [Val.isStr] at hv

/-- C47. `group_strings` on a list keeps all characters and all items that are not empty, in order (grouping
inside them), and afterwards no two strings are adjacent and none is empty. -/
theorem C47_group_strings (l : List Val) :
    ∃ r, groupStrings (.list l) = .list r ∧ atomsGrouped r = atoms l ∧
      r.IsChain (fun v w => ¬ (v.isStr = true ∧ w.isStr = true)) ∧ ∀ v ∈ r, v ≠ .str [] := by
  refine ⟨joinAdj (groupItems l), by rw [groupStrings], ?_, ?_⟩
  · rw [joinAdj_atoms, groupItems_atoms]
  · apply joinAdj_chain
    intro v hv
    induction l with
    | nil => simp [groupItems] at hv
    | cons x l ih =>
      simp only [groupItems] at hv
      split at hv
      · rename_i ht
        rcases List.mem_cons.1 hv with rfl | hv
        · cases x with
          | str s =>
            simp [groupStrings]
            rintro rfl; simp [Val.truthy] at ht
          | tag => simp [groupStrings]
          | list => simp [groupStrings]
        · exact ih hv
      · exact ih hv

example : groupStrings (.list [.str "a".toList, .str "b".toList, .str [], .tag "t".toList none true (.str []), .str [],
    .list [], .str "f".toList]) = .list [.str "ab".toList, .tag "t".toList none true (.str []), .str "f".toList] := by
  rfl

/-- Finding: a tag whose content is an empty list disappears. -/
theorem C47_tag_with_empty_list_disappears (n : Str) (a : Option Str) (b : Bool) (v : Val) :
    groupStrings (.list [v, .tag n a b (.list [])]) = groupStrings (.list [v]) := by
  have : (Val.tag n a b (.list [])).truthy = false := rfl
  simp only [groupStrings, groupItems, this, Bool.false_eq_true, if_false]

/-- Finding: grouping twice can differ from grouping once: a tag whose content holds only empty strings is
dropped the second time. -/
theorem C47_grouping_is_not_idempotent :
    let v := Val.list [.tag "t".toList none true (.list [.str []]), .str "x".toList]
    groupStrings v = .list [.tag "t".toList none true (.list []), .str "x".toList] ∧
    groupStrings (groupStrings v) = .list [.str "x".toList] := by
  constructor <;> rfl

end Verif.Parser

namespace Verif.Utils

/-! ### C39: format strings -/

/-- The key made of the first `n` keys. -/
def keyOf (sep : Str) (keys : List Str) (n : Nat) : Str := join sep (keys.take n)

/-- The entry of a dict for the first `n` keys: the one with the suffix, and failing that the plain one. -/
def entryAt {α : Type} (sep : Str) (suffix : Option Str) (keys : List Str) (d : Dict Str α) (n : Nat) : Option α :=
  (suffix.bind fun s => d.get? (keyOf sep keys n ++ sep ++ s)).or (d.get? (keyOf sep keys n))

theorem findIn_spec {α : Type} (sep : Str) (suffix : Option Str) (keys : List Str) (d : Dict Str α) (n : Nat) (v : α) :
    findIn sep suffix keys d n = some v ↔
      ∃ m, 0 < m ∧ m ≤ n ∧ entryAt sep suffix keys d m = some v ∧
        ∀ m', m < m' → m' ≤ n → entryAt sep suffix keys d m' = none := by
  have step : ∀ n, findIn sep suffix keys d (n + 1) =
      (entryAt sep suffix keys d (n + 1)).or (findIn sep suffix keys d n) := by
    intro n
    simp only [findIn, entryAt, keyOf]
    cases suffix with
    | none => simp; cases d.get? (join sep (keys.take (n + 1))) <;> simp
    | some s =>
      simp only [Option.bind_some, join]
      cases d.get? (join sep (keys.take (n + 1)) ++ sep ++ s) with
      | some v => simp
      | none => simp; cases d.get? (join sep (keys.take (n + 1))) <;> simp
  induction n with
  | zero =>
    simp only [findIn, reduceCtorEq, false_iff]
    rintro ⟨m, h1, h2, _⟩; omega
  | succ n ih =>
    rw [step]
    cases he : entryAt sep suffix keys d (n + 1) with
    | some w =>
      simp only [Option.some_or, Option.some.injEq]
      constructor
      · rintro rfl
        exact ⟨n + 1, by omega, by omega, he, fun m' h1 h2 => by omega⟩
      · rintro ⟨m, h1, h2, h3, h4⟩
        by_cases hm : m = n + 1
        · subst hm; rw [he] at h3; simpa using h3
        · have := h4 (n + 1) (by omega) (by omega)
          rw [he] at this; simp at this
    | none =>
      simp only [Option.none_or]
      refine (show _ ↔ _ from ih).trans ?_
      constructor
      · rintro ⟨m, h1, h2, h3, h4⟩
        refine ⟨m, h1, by omega, h3, ?_⟩
        intro m' h5 h6
        by_cases hm : m' = n + 1
        · subst hm; exact he
        · exact h4 m' h5 (by omega)
      · rintro ⟨m, h1, h2, h3, h4⟩
        have hm : m ≠ n + 1 := by rintro rfl; rw [he] at h3; simp at h3
        exact ⟨m, h1, by omega, h3, fun m' h5 h6 => h4 m' h5 (by omega)⟩

/-- C39. `find_entry` returns the entry with the longest key in the first dict that has any, and for the same
keys prefers the one with the suffix. -/
theorem C39_find_entry {α : Type} (sep : Str) (suffix : Option Str) (keys : List Str) (dicts : List (Dict Str α)) (v : α) :
    findEntry sep suffix keys dicts = some v ↔
      ∃ a d b, dicts = a ++ d :: b ∧
        (∀ d' ∈ a, ∀ n, 0 < n → n ≤ keys.length → entryAt sep suffix keys d' n = none) ∧
        ∃ n, 0 < n ∧ n ≤ keys.length ∧ entryAt sep suffix keys d n = some v ∧
          ∀ m, n < m → m ≤ keys.length → entryAt sep suffix keys d m = none := by
  induction dicts with
  | nil => simp [findEntry]
  | cons d ds ih =>
    have hnone : findIn sep suffix keys d keys.length = none ↔
        ∀ n, 0 < n → n ≤ keys.length → entryAt sep suffix keys d n = none := by
      constructor
      · intro h n h1 h2
        cases he : entryAt sep suffix keys d n with
        | none => rfl
        | some w =>
          -- the greatest such n
          have : ∃ m w, n ≤ m ∧ m ≤ keys.length ∧ entryAt sep suffix keys d m = some w ∧
              ∀ m', m < m' → m' ≤ keys.length → entryAt sep suffix keys d m' = none := by
            have : ∀ k n w, keys.length - n = k → n ≤ keys.length → entryAt sep suffix keys d n = some w →
                ∃ m w, n ≤ m ∧ m ≤ keys.length ∧ entryAt sep suffix keys d m = some w ∧
                  ∀ m', m < m' → m' ≤ keys.length → entryAt sep suffix keys d m' = none := by
              intro k
              induction k using Nat.strongRecOn with
              | _ k ihk =>
                intro n w hk hn hw
                by_cases hex : ∃ m' w', n < m' ∧ m' ≤ keys.length ∧ entryAt sep suffix keys d m' = some w'
                · obtain ⟨m', w', a1, a2, a3⟩ := hex
                  obtain ⟨m, w, b1, b2⟩ := ihk (keys.length - m') (by omega) m' w' rfl a2 a3
                  exact ⟨m, w, by omega, b2⟩
                · refine ⟨n, w, by omega, hn, hw, ?_⟩
                  intro m' c1 c2
                  cases hm : entryAt sep suffix keys d m' with
                  | none => rfl
                  | some w' => exact absurd ⟨m', w', c1, c2, hm⟩ hex
            exact this _ n w rfl h2 he
          obtain ⟨m, w, a1, a2, a3, a4⟩ := this
          have := (findIn_spec sep suffix keys d keys.length w).2 ⟨m, by omega, a2, a3, a4⟩
          rw [h] at this; simp at this
      · intro h
        cases hf : findIn sep suffix keys d keys.length with
        | none => rfl
        | some w =>
          obtain ⟨m, a1, a2, a3, _⟩ := (findIn_spec sep suffix keys d keys.length w).1 hf
          rw [h m a1 a2] at a3; simp at a3
    simp only [findEntry]
    cases hf : findIn sep suffix keys d keys.length with
    | some w =>
      simp only [Option.some.injEq]
      constructor
      · rintro rfl
        exact ⟨[], d, ds, rfl, by simp, (findIn_spec sep suffix keys d keys.length w).1 hf⟩
      · rintro ⟨a, d', b, h1, h2, h3⟩
        cases a with
        | nil =>
          simp at h1; obtain ⟨rfl, rfl⟩ := h1
          have := (findIn_spec sep suffix keys d keys.length v).2 h3
          rw [hf] at this; simpa using this
        | cons x a =>
          simp at h1; obtain ⟨rfl, rfl⟩ := h1
          have := hnone.2 (h2 d (by simp))
          rw [hf] at this; simp at this
    | none =>
      simp only
      rw [ih]
      constructor
      · rintro ⟨a, d', b, rfl, h2, h3⟩
        refine ⟨d :: a, d', b, rfl, ?_, h3⟩
        intro x hx
        rcases List.mem_cons.1 hx with rfl | hx
        · exact hnone.1 hf
        · exact h2 x hx
      · rintro ⟨a, d', b, h1, h2, h3⟩
        cases a with
        | nil =>
          simp at h1; obtain ⟨rfl, rfl⟩ := h1
          have := (findIn_spec sep suffix keys d keys.length v).2 h3
          rw [hf] at this; simp at this
        | cons x a =>
          simp at h1; obtain ⟨rfl, rfl⟩ := h1
          exact ⟨a, d', b, rfl, fun x hx => h2 x (by simp [hx]), h3⟩

/-- C39. `KeyError` exactly if no dict has any of the keys. -/
theorem C39_key_error {α : Type} (sep : Str) (suffix : Option Str) (keys : List Str) (dicts : List (Dict Str α)) :
    findEntry sep suffix keys dicts = none ↔
      ∀ d ∈ dicts, ∀ n, 0 < n → n ≤ keys.length → entryAt sep suffix keys d n = none := by
  constructor
  · intro h
    intro d hd n h1 h2
    induction dicts with
    | nil => simp at hd
    | cons x ds ih =>
      simp only [findEntry] at h
      cases hx : findIn sep suffix keys x keys.length with
      | some w => rw [hx] at h; simp at h
      | none =>
        rw [hx] at h
        rcases List.mem_cons.1 hd with rfl | hd
        · -- otherwise the singleton list would have an entry
          cases he : entryAt sep suffix keys d n with
          | none => rfl
          | some w =>
            exfalso
            have hex : ∀ k n, keys.length - n = k → 0 < n → n ≤ keys.length → (entryAt sep suffix keys d n).isSome →
                ∃ v, findIn sep suffix keys d keys.length = some v := by
              intro k
              induction k using Nat.strongRecOn with
              | _ k ihk =>
                intro n hk h1 h2 hs
                by_cases hm : ∃ m, n < m ∧ m ≤ keys.length ∧ (entryAt sep suffix keys d m).isSome
                · obtain ⟨m, a1, a2, a3⟩ := hm
                  exact ihk _ (by omega) m rfl (by omega) a2 a3
                · obtain ⟨w, hw⟩ := Option.isSome_iff_exists.1 hs
                  refine ⟨w, (findIn_spec sep suffix keys d keys.length w).2 ⟨n, h1, h2, hw, ?_⟩⟩
                  intro m' c1 c2
                  cases hm' : entryAt sep suffix keys d m' with
                  | none => rfl
                  | some w' => exact absurd ⟨m', c1, c2, by simp [hm']⟩ hm
            obtain ⟨v, hv⟩ := hex _ n rfl h1 h2 (by simp [he])
            rw [hx] at hv; simp at hv
        · exact ih h hd
  · intro h
    cases hf : findEntry sep suffix keys dicts with
    | none => rfl
    | some v =>
      obtain ⟨a, d, b, rfl, _, n, h1, h2, h3, _⟩ := (C39_find_entry sep suffix keys dicts v).1 hf
      rw [h d (by simp) n h1 h2] at h3; simp at h3

example : let d : Dict Str Nat := [("s_m_t".toList, 1), ("s_m".toList, 2), ("s_t".toList, 5), ("s".toList, 6)]
    findEntry "_".toList (some "t".toList) ["s".toList, "m".toList] [d] = some 1 ∧
    findEntry "_".toList (some "x".toList) ["s".toList, "m".toList] [[], d] = some 2 ∧
    findEntry "_".toList (some "t".toList) ["s".toList, "q".toList] [d] = some 5 ∧
    findEntry "_".toList none ["q".toList] [d] = none := by decide

end Verif.Utils
