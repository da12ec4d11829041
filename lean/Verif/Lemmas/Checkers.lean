import Verif.Spec.Checkers
import Verif.Lemmas.Strings

/-! # Lemmas about the checkers -/

namespace Verif.Checkers

open Verif

/-! ## Availability -/

mutual
theorem available_iff : ∀ d, available d = true ↔ Met (fun _ a => a = some true) d
  | .prog n a => by
    constructor
    · intro h
      unfold available at h
      split at h
      · exact .prog n _ rfl
      · cases h
    · intro h
      cases h with
      | prog _ _ h => subst h; rfl
  | .group .any c ds => by
    simp only [available]
    rw [anyAvailable_iff ds]
    constructor
    · rintro ⟨d, h1, h2⟩; exact .any c ds d h1 h2
    · intro h; cases h with | any _ _ d h1 h2 => exact ⟨d, h1, h2⟩
  | .group .all c ds => by
    simp only [available]
    rw [allAvailable_iff ds]
    constructor
    · intro h; exact .all c ds h
    · intro h; cases h with | all _ _ h => exact h
  | .group .optional c ds => by
    simp only [available, true_iff]
    exact .optional c ds

theorem anyAvailable_iff : ∀ ds, anyAvailable ds = true ↔ ∃ d ∈ ds, Met (fun _ a => a = some true) d
  | [] => by simp [anyAvailable]
  | d :: ds => by
    simp only [anyAvailable, Bool.or_eq_true, List.mem_cons, exists_eq_or_imp]
    rw [available_iff d, anyAvailable_iff ds]

theorem allAvailable_iff : ∀ ds, allAvailable ds = true ↔ ∀ d ∈ ds, Met (fun _ a => a = some true) d
  | [] => by simp [allAvailable]
  | d :: ds => by
    simp only [allAvailable, Bool.and_eq_true, List.mem_cons, forall_eq_or_imp]
    rw [available_iff d, allAvailable_iff ds]
end

/-! ## Mapping -/

theorem mapAll_map (f : Str → Option Bool → Option Bool) (ds : List Dep) : mapAll f ds = ds.map (mapProgs f) := by
  induction ds with
  | nil => rfl
  | cons d ds ih => simp [mapAll, ih]

mutual
theorem met_mapProgs (P : Str → Option Bool → Prop) (f : Str → Option Bool → Option Bool) : ∀ d,
    Met P (mapProgs f d) ↔ Met (fun n a => P n (f n a)) d
  | .prog n a => by
    constructor
    · intro h; cases h with | prog _ _ h => exact .prog n a h
    · intro h; cases h with | prog _ _ h => exact .prog n _ h
  | .group .any c ds => by
    simp only [mapProgs]
    constructor
    · intro h
      cases h with
      | any _ _ d h1 h2 =>
        rw [mapAll_map] at h1
        obtain ⟨e, he, rfl⟩ := List.mem_map.1 h1
        exact .any c ds e he ((met_mapAll P f ds e he).1 h2)
    · intro h
      cases h with
      | any _ _ d h1 h2 =>
        refine .any c _ (mapProgs f d) ?_ ((met_mapAll P f ds d h1).2 h2)
        rw [mapAll_map]; exact List.mem_map_of_mem h1
  | .group .all c ds => by
    simp only [mapProgs]
    constructor
    · intro h
      cases h with
      | all _ _ h =>
        refine .all c ds (fun d hd => (met_mapAll P f ds d hd).1 (h _ ?_))
        rw [mapAll_map]; exact List.mem_map_of_mem hd
    · intro h
      cases h with
      | all _ _ h =>
        refine .all c _ (fun d hd => ?_)
        rw [mapAll_map] at hd
        obtain ⟨e, he, rfl⟩ := List.mem_map.1 hd
        exact (met_mapAll P f ds e he).2 (h e he)
  | .group .optional c ds => ⟨fun _ => .optional c ds, fun _ => .optional c _⟩

theorem met_mapAll (P : Str → Option Bool → Prop) (f : Str → Option Bool → Option Bool) : ∀ (ds : List Dep), ∀ d ∈ ds,
    (Met P (mapProgs f d) ↔ Met (fun n a => P n (f n a)) d)
  | [] => by simp
  | e :: ds => by
    intro d hd
    rcases List.mem_cons.1 hd with h | h
    · rw [h]; exact met_mapProgs P f e
    · exact met_mapAll P f ds d h
end

mutual
theorem has_mapProgs (f : Str → Option Bool → Option Bool) (n : Str) (b : Option Bool) : ∀ d,
    Has (mapProgs f d) n b ↔ ∃ a, Has d n a ∧ b = f n a
  | .prog m a => by
    constructor
    · intro h; cases h with | prog => exact ⟨a, .prog _ a, rfl⟩
    · rintro ⟨a', h, rfl⟩; cases h with | prog => exact .prog _ _
  | .group k c ds => by
    simp only [mapProgs]
    constructor
    · intro h
      cases h with
      | group _ _ _ d _ _ h1 h2 =>
        rw [mapAll_map] at h1
        obtain ⟨e, he, rfl⟩ := List.mem_map.1 h1
        obtain ⟨a, ha, hb⟩ := (has_mapAll f n b ds e he).1 h2
        exact ⟨a, .group k c ds e n a he ha, hb⟩
    · rintro ⟨a, h, hb⟩
      cases h with
      | group _ _ _ d _ _ h1 h2 =>
        refine .group k c _ (mapProgs f d) n b ?_ ((has_mapAll f n b ds d h1).2 ⟨a, h2, hb⟩)
        rw [mapAll_map]; exact List.mem_map_of_mem h1

theorem has_mapAll (f : Str → Option Bool → Option Bool) (n : Str) (b : Option Bool) : ∀ (ds : List Dep), ∀ d ∈ ds,
    (Has (mapProgs f d) n b ↔ ∃ a, Has d n a ∧ b = f n a)
  | [] => by simp
  | e :: ds => by
    intro d hd
    rcases List.mem_cons.1 hd with h | h
    · rw [h]; exact has_mapProgs f n b e
    · exact has_mapAll f n b ds d h
end

/-! ## Flattening -/

mutual
theorem flattenItem_nodes (n level : Nat) : ∀ d, nesting d ≤ n → flattenItem n level d = some (nodes level d)
  | .prog m a => by intro _; rfl
  | .group k c ds => by
    intro h
    simp only [nesting] at h
    cases n with
    | zero => omega
    | succ n =>
      simp only [flattenItem]
      rw [flattenItems_nodes n (level + 1) ds (by omega)]
      rfl

theorem flattenItems_nodes (n level : Nat) : ∀ ds, nestings ds ≤ n → flattenItems n level ds = some (allNodes level ds)
  | [] => by intro _; rfl
  | d :: ds => by
    intro h
    simp only [nestings] at h
    simp only [flattenItems]
    rw [flattenItem_nodes n level d (by omega), flattenItems_nodes n level ds (by omega)]
    rfl
end

mutual
theorem flattenItem_none (n level : Nat) : ∀ d, n < nesting d → flattenItem n level d = none
  | .prog m a => by intro h; simp [nesting] at h
  | .group k c ds => by
    intro h
    simp only [nesting] at h
    cases n with
    | zero => rfl
    | succ n =>
      simp only [flattenItem]
      rw [flattenItems_none n (level + 1) ds (by omega)]
      rfl

theorem flattenItems_none (n level : Nat) : ∀ ds, n < nestings ds → flattenItems n level ds = none
  | [] => by intro h; simp [nestings] at h
  | d :: ds => by
    intro h
    simp only [nestings] at h
    simp only [flattenItems]
    by_cases hd : n < nesting d
    · rw [flattenItem_none n level d hd]
    · rw [flattenItems_none n level ds (by omega)]
      cases flattenItem n level d <;> rfl
end

/-! ## Versions -/

theorem tupleLt_iff (a b : List Nat) : tupleLt a b = true ↔ a < b := by
  induction a generalizing b with
  | nil =>
    cases b with
    | nil => simp [tupleLt]
    | cons y b => simp [tupleLt]
  | cons x a ih =>
    cases b with
    | nil => simp [tupleLt]
    | cons y b =>
      simp only [tupleLt, Bool.or_eq_true, decide_eq_true_eq, Bool.and_eq_true, beq_iff_eq, List.cons_lt_cons_iff, ih]

theorem tuple_total (a b : List Nat) : ¬ a < b ↔ (b < a ∨ a = b) := by
  induction a generalizing b with
  | nil => cases b <;> simp
  | cons x a ih =>
    cases b with
    | nil => simp
    | cons y b =>
      simp only [List.cons_lt_cons_iff, List.cons.injEq]
      have := ih b
      constructor
      · intro h
        by_cases hxy : x = y
        · subst hxy
          have hn : ¬ a < b := fun e => h (Or.inr ⟨rfl, e⟩)
          rcases this.1 hn with e | e
          · exact Or.inl (Or.inr ⟨rfl, e⟩)
          · exact Or.inr ⟨rfl, e⟩
        · have : ¬ x < y := fun e => h (Or.inl e)
          exact Or.inl (Or.inl (by omega))
      · rintro ((h | ⟨h1, h2⟩) | ⟨h1, h2⟩)
        · rintro (e | ⟨e, _⟩) <;> omega
        · rintro (e | ⟨_, e⟩)
          · omega
          · exact (this.2 (Or.inl h2)) e
        · rintro (e | ⟨_, e⟩)
          · omega
          · exact (this.2 (Or.inr h2)) e

theorem apply_iff (op : Op) (a b : List Nat) : op.apply a b = true ↔ Fits op a b := by
  cases op
  · simp [Op.apply, Fits]
  · simp only [Op.apply, Fits, Bool.not_eq_true', ← Bool.not_eq_true]; rw [tupleLt_iff, tuple_total]
  · simp only [Op.apply, Fits, Bool.not_eq_true', ← Bool.not_eq_true]; rw [tupleLt_iff, tuple_total]
    constructor
    · rintro (h | h)
      · exact Or.inl h
      · exact Or.inr h.symm
    · rintro (h | h)
      · exact Or.inl h
      · exact Or.inr h.symm
  · simp [Op.apply, Fits, tupleLt_iff]
  · simp [Op.apply, Fits, tupleLt_iff]
  · simp [Op.apply, Fits]

/-! ## Numbers -/

theorem foldl_toDigits (n : Nat) : (Nat.toDigits 10 n).foldl (fun n c => 10 * n + (c.toNat - 48)) 0 = n := by
  induction n using Nat.strongRecOn with
  | _ n ih =>
    rw [Nat.toDigits_eq_if (by decide)]
    split
    · rename_i h
      simp [Nat.toNat_digitChar_sub_48_of_lt_ten h]
    · rename_i h
      rw [List.foldl_append, ih (n / 10) (by omega)]
      simp only [List.foldl_cons, List.foldl_nil]
      rw [Nat.toNat_digitChar_sub_48_of_lt_ten (Nat.mod_lt n (by decide))]
      omega

theorem digits_all (n : Nat) : ∀ c ∈ Nat.toDigits 10 n, c.isDigit = true :=
  fun _ hc => Nat.isDigit_of_mem_toDigits (by decide) (by decide) hc

theorem toInt_digits (n : Nat) : toInt (Nat.toDigits 10 n) = some n := by
  unfold toInt
  rw [if_neg, foldl_toDigits]
  simp only [Bool.or_eq_true, decide_eq_true_eq, Bool.not_eq_true', not_or, Bool.not_eq_false]
  exact ⟨Nat.toDigits_ne_nil, List.all_eq_true.2 (digits_all n)⟩

theorem toInts_digits (v : List Nat) : toInts (v.map (Nat.toDigits 10)) = some v := by
  induction v with
  | nil => rfl
  | cons n v ih => simp [toInts, toInt_digits, ih]

theorem dot_not_digits (n : Nat) : '.' ∉ Nat.toDigits 10 n := by
  intro h
  have := digits_all n _ h
  revert this; decide

theorem versionText_chars (v : List Nat) : ∀ c ∈ versionText v, versionChar c = true := by
  have : ∀ l : List Str, (∀ s ∈ l, ∀ c ∈ s, c.isDigit = true) → ∀ c ∈ join ".".toList l, versionChar c = true := by
    intro l hl
    induction l with
    | nil => simp [join]
    | cons s l ih =>
      intro c hc
      cases l with
      | nil =>
        simp only [join] at hc
        simp [versionChar, hl s (by simp) c hc]
      | cons t l =>
        rw [join_cons _ _ _ (by simp)] at hc
        simp only [List.mem_append] at hc
        rcases hc with (hc | hc) | hc
        · simp [versionChar, hl s (by simp) c hc]
        · have : c = '.' := by simpa using hc
          subst this; rfl
        · exact ih (fun x hx => hl x (by simp [hx])) c hc
  refine this _ ?_
  intro s hs c hc
  obtain ⟨n, _, rfl⟩ := List.mem_map.1 hs
  exact digits_all n c hc

theorem versionText_ne_nil (v : List Nat) (hv : v ≠ []) : ∃ c t, versionText v = c :: t ∧ c.isDigit = true := by
  cases v with
  | nil => exact absurd rfl hv
  | cons n v =>
    have h1 : Nat.toDigits 10 n ≠ [] := Nat.toDigits_ne_nil
    cases hd : Nat.toDigits 10 n with
    | nil => exact absurd hd h1
    | cons c s =>
      have hc : c.isDigit = true := digits_all n c (by rw [hd]; simp)
      unfold versionText
      cases v with
      | nil => exact ⟨c, s, by simp [join, hd], hc⟩
      | cons m v =>
        simp only [List.map_cons]
        rw [join_cons _ _ _ (by simp), hd]
        exact ⟨c, _, rfl, hc⟩

theorem split_versionText (v : List Nat) (hv : v ≠ []) : split ".".toList (versionText v) = v.map (Nat.toDigits 10) := by
  unfold versionText
  refine split_join '.' _ (by simpa using hv) ?_
  intro p hp
  obtain ⟨n, _, rfl⟩ := List.mem_map.1 hp
  exact dot_not_digits n

/-! ## Parsing -/

variable {word sp : Char → Bool}

theorem takeWhile_append_of (p : Char → Bool) (x y : Str) (hx : ∀ c ∈ x, p c = true) (hy : ∀ c, y.head? = some c → p c = false) :
    (x ++ y).takeWhile p = x ∧ (x ++ y).dropWhile p = y := by
  induction x with
  | nil =>
    cases y with
    | nil => exact ⟨rfl, rfl⟩
    | cons c y => simp [hy c rfl]
  | cons d x ih =>
    obtain ⟨h1, h2⟩ := ih (fun c hc => hx c (by simp [hc]))
    simp only [List.cons_append, List.takeWhile_cons, List.dropWhile_cons, hx d (by simp), if_true, h1, h2, and_self]

theorem nameChar_of (n : Str) (h : IsName word n) : ∀ c ∈ n, nameChar word c = true := by
  intro c hc
  rcases h.2 c hc with e | e | e | e <;> simp [nameChar, e]

theorem matchOp_text (op : Op) (r : Str) (hr : ∀ c, r.head? = some c → c ≠ '=') : matchOp (opText op ++ r) = (some op, r) := by
  cases op
  · rfl
  · rfl
  · rfl
  · cases r with
    | nil => rfl
    | cons c r =>
      have := hr c rfl
      simp only [opText]
      show matchOp ('>' :: c :: r) = _
      unfold matchOp
      split <;> simp_all
  · cases r with
    | nil => rfl
    | cons c r =>
      have := hr c rfl
      simp only [opText]
      show matchOp ('<' :: c :: r) = _
      unfold matchOp
      split <;> simp_all
  · rfl

theorem matchOp_nil : matchOp [] = (none, []) := rfl

/-- A name alone. -/
theorem nameAndVersion_name (n : Str) (hn : IsName word n) : nameAndVersion word sp n = .ok (some (n, none, none)) := by
  have h0 := nameChar_of n hn
  have hd : n.dropWhile (fun c => !nameChar word c) = n := by
    cases n with
    | nil => rfl
    | cons c n => simp [h0 c (by simp)]
  have h1 := takeWhile_append_of (nameChar word) n [] h0 (by simp)
  rw [List.append_nil] at h1
  unfold nameAndVersion
  simp only [hd, hn.1, if_false, h1.1, h1.2]
  simp [matchOp_nil]

/-- A name with a condition, with spaces around the operator. -/
theorem nameAndVersion_op (hc : Classes word sp) (n : Str) (hn : IsName word n) (ws ws' : Str) (hws : ∀ c ∈ ws, sp c = true)
    (hws' : ∀ c ∈ ws', sp c = true) (op : Op) (v : List Nat) (hv : v ≠ []) :
    nameAndVersion word sp (n ++ (ws ++ (opText op ++ (ws' ++ versionText v)))) = .ok (some (n, some op, some v)) := by
  have h0 := nameChar_of n hn
  obtain ⟨o, os, hop, ho⟩ : ∃ o os, opText op = o :: os ∧ o ∈ "=<>!".toList := by cases op <;> exact ⟨_, _, rfl, by decide⟩
  have hoc : nameChar word o = false ∧ sp o = false := by
    have := hc.ops o ho
    refine ⟨?_, this.2⟩
    unfold nameChar
    rw [this.1]
    revert ho
    intro ho
    have : o ≠ '.' ∧ o ≠ '-' ∧ o ≠ '_' := by
      refine ⟨?_, ?_, ?_⟩ <;> (rintro rfl; revert ho; decide)
    simp [this.1, this.2.1, this.2.2]
  have hspn : ∀ c, sp c = true → nameChar word c = false := by
    intro c h
    have := hc.space c h
    simp [nameChar, this.1, this.2.1, this.2.2.1, this.2.2.2.1]
  obtain ⟨d, ds, hvt, hd⟩ := versionText_ne_nil v hv
  have hdsp : sp d = false := by
    cases h : sp d with
    | false => rfl
    | true => have := (hc.space d h).2.2.2.2; rw [hd] at this; cases this
  have hfirst : (n ++ (ws ++ (opText op ++ (ws' ++ versionText v)))).dropWhile (fun c => !nameChar word c) =
      n ++ (ws ++ (opText op ++ (ws' ++ versionText v))) := by
    cases n with
    | nil => exact absurd rfl hn.1
    | cons c n => simp [h0 c (by simp)]
  have hrest : ∀ c, (ws ++ (opText op ++ (ws' ++ versionText v))).head? = some c → nameChar word c = false := by
    intro c h
    cases ws with
    | nil =>
      rw [hop] at h
      simp only [List.nil_append, List.cons_append, List.head?_cons, Option.some.injEq] at h
      subst h; exact hoc.1
    | cons e ws =>
      simp only [List.cons_append, List.head?_cons, Option.some.injEq] at h
      subst h; exact hspn _ (hws _ (by simp))
  have h1 := takeWhile_append_of (nameChar word) n _ h0 hrest
  have h2 := takeWhile_append_of sp ws (opText op ++ (ws' ++ versionText v)) hws (by
    intro c h
    rw [hop] at h
    simp only [List.cons_append, List.head?_cons, Option.some.injEq] at h
    subst h; exact hoc.2)
  have h3 := matchOp_text op (ws' ++ versionText v) (by
    intro c h
    rintro rfl
    cases ws' with
    | nil =>
      rw [hvt] at h
      simp only [List.nil_append, List.head?_cons, Option.some.injEq] at h
      subst h; revert hd; decide
    | cons e ws' =>
      simp only [List.cons_append, List.head?_cons, Option.some.injEq] at h
      subst h
      have := hws' '=' (by simp)
      rw [(hc.ops '=' (by decide)).2] at this
      cases this)
  have h4 := takeWhile_append_of sp ws' (versionText v) hws' (by
    intro c h
    rw [hvt] at h
    simp only [List.head?_cons, Option.some.injEq] at h
    subst h; exact hdsp)
  have h5 := takeWhile_append_of versionChar (versionText v) [] (versionText_chars v) (by simp)
  rw [List.append_nil] at h5
  unfold nameAndVersion
  simp only [hfirst]
  rw [if_neg (by simp [hn.1])]
  simp only [h1.1, h1.2, h2.2, h3, h4.2, h5.1]
  rw [if_neg (by rw [hvt]; simp), split_versionText v hv, toInts_digits]

/-- A requirement. -/
theorem nameAndVersion_requirement (hc : Classes word sp) (n : Str) (hn : IsName word n) (c : Option (Op × List Nat))
    (hv : ∀ op v, c = some (op, v) → v ≠ []) :
    nameAndVersion word sp (requirement n c) = .ok (some (n, c.map (·.1), c.map (·.2))) := by
  cases c with
  | none => exact nameAndVersion_name n hn
  | some x =>
    obtain ⟨op, v⟩ := x
    have := nameAndVersion_op hc n hn [] [] (by simp) (by simp) op v (hv op v rfl)
    simpa [requirement] using this

/-! ## Checkers -/

theorem updateFirst_none (k : Str) (f : Dep → Except CheckError Dep) (ds : List Dep) (h : k ∉ ds.map key) :
    updateFirst k f ds = .ok ds := by
  induction ds with
  | nil => rfl
  | cons d ds ih =>
    simp only [List.map_cons, List.mem_cons, not_or] at h
    have hk : ¬ key d = k := fun e => h.1 e.symm
    simp only [updateFirst, if_neg hk, ih h.2]

theorem updateFirst_append (k : Str) (f : Dep → Except CheckError Dep) (ds es : List Dep) (h : k ∉ ds.map key) :
    updateFirst k f (ds ++ es) = (updateFirst k f es).map (ds ++ ·) := by
  induction ds with
  | nil =>
    simp only [List.nil_append]
    cases updateFirst k f es <;> rfl
  | cons d ds ih =>
    simp only [List.map_cons, List.mem_cons, not_or] at h
    have hk : ¬ key d = k := fun e => h.1 e.symm
    simp only [List.cons_append, updateFirst, if_neg hk, ih h.2]
    cases updateFirst k f es <;> rfl

theorem runHandlers_checked (handlers : Str → Option (Dep → Except CheckError Dep))
    (hkey : ∀ c f k l d', handlers c = some f → f (.group k c l) = .ok d' → key d' = c)
    (ds : List Dep) (pre : List Dep) (hnd : (ds.map key).Nodup) (hpre : ∀ k ∈ ds.map key, k ∉ pre.map key) (r : List Dep) :
    runHandlers handlers (categories ds) (pre ++ ds) = .ok r ↔ ∃ ds', Checked handlers ds ds' ∧ r = pre ++ ds' := by
  induction ds generalizing pre with
  | nil =>
    simp only [categories, runHandlers, List.append_nil, Except.ok.injEq]
    constructor
    · rintro rfl; exact ⟨[], .nil, by simp⟩
    · rintro ⟨ds', h, rfl⟩; cases h; simp
  | cons d ds ih =>
    simp only [List.map_cons, List.nodup_cons] at hnd
    cases d with
    | prog n a =>
      have := ih (pre ++ [.prog n a]) hnd.2 (by
        intro k hk
        simp only [List.map_append, List.mem_append, not_or]
        refine ⟨hpre k (by simp [hk]), ?_⟩
        simp only [List.map_cons, List.map_nil, List.mem_singleton]
        rintro rfl
        exact hnd.1 hk)
      simp only [categories]
      rw [List.append_assoc, List.singleton_append] at this
      rw [this]
      constructor
      · rintro ⟨ds', h, rfl⟩; exact ⟨_, .prog n a ds ds' h, by simp⟩
      · rintro ⟨ds', h, rfl⟩
        cases h with
        | prog _ _ _ ds' h => exact ⟨ds', h, by simp⟩
    | group k c l =>
      simp only [categories, runHandlers]
      have hc : c ∉ pre.map key := hpre c (by simp [key])
      cases hf : handlers c with
      | none =>
        simp only [reduceCtorEq, false_iff]
        rintro ⟨ds', h, rfl⟩
        cases h with
        | group _ _ _ f d' _ _ h1 _ _ => rw [hf] at h1; cases h1
      | some f =>
        simp only
        rw [updateFirst_append c f pre _ hc]
        have hu : updateFirst c f (.group k c l :: ds) = (f (.group k c l)).map (· :: ds) := by
          simp only [updateFirst, key, if_true]
          cases f (.group k c l) <;> rfl
        rw [hu]
        cases hr : f (.group k c l) with
        | error e =>
          simp only [Except.map, reduceCtorEq, false_iff]
          rintro ⟨ds', h, rfl⟩
          cases h with
          | group _ _ _ f' d' _ _ h1 h2 _ =>
            rw [hf] at h1
            simp only [Option.some.injEq] at h1
            subst h1
            rw [hr] at h2; cases h2
        | ok d' =>
          simp only [Except.map]
          have hkd : key d' = c := hkey c f k l d' hf hr
          have := ih (pre ++ [d']) hnd.2 (by
            intro k' hk'
            simp only [List.map_append, List.mem_append, not_or]
            refine ⟨hpre k' (by simp [hk']), ?_⟩
            simp only [List.map_cons, List.map_nil, List.mem_singleton, hkd]
            rintro rfl
            exact hnd.1 hk')
          rw [List.append_assoc, List.singleton_append] at this
          rw [this]
          constructor
          · rintro ⟨ds', h, rfl⟩; exact ⟨_, .group k c l f d' ds ds' hf hr h, by simp⟩
          · rintro ⟨ds', h, rfl⟩
            cases h with
            | group _ _ _ f' d'' _ ds'' h1 h2 h3 =>
              rw [hf] at h1
              simp only [Option.some.injEq] at h1
              subst h1
              rw [hr] at h2
              simp only [Except.ok.injEq] at h2
              subst h2
              exact ⟨ds'', h3, by simp⟩

theorem key_checkPip (f : Str → Option Bool → Except CheckError (Option Bool)) (d d' : Dep) (h : checkPip f d = .ok d') : key d' = key d := by
  cases d with
  | prog n a =>
    simp only [checkPip] at h
    cases hf : f n a with
    | error e => rw [hf] at h; cases h
    | ok b => rw [hf] at h; simp only [Except.ok.injEq] at h; subst h; rfl
  | group k c ds =>
    simp only [checkPip] at h
    cases hf : checkPips f ds with
    | error e => rw [hf] at h; cases h
    | ok b => rw [hf] at h; simp only [Except.ok.injEq] at h; subst h; rfl

theorem key_checkKpse (kpse : Option (Str → Bool)) (ext : Str) (d d' : Dep) (h : checkKpse kpse ext d = .ok d') : key d' = key d := by
  cases d <;> cases kpse <;> simp only [checkKpse, Except.ok.injEq, reduceCtorEq] at h <;> subst h <;> rfl

theorem key_checkExecutables (which : Str → Bool) (d d' : Dep) (h : checkExecutables which d = .ok d') : key d' = key d := by
  cases d with
  | prog n a => cases h
  | group k c ds => simp only [checkExecutables, Except.ok.injEq] at h; subst h; rfl

mutual
/-- If no package raises an error, the packages are set. -/
theorem checkPip_ok (f : Str → Option Bool → Except CheckError (Option Bool)) (g : Str → Option Bool → Option Bool) : ∀ d,
    (∀ n a, Has d n a → f n a = .ok (g n a)) → checkPip f d = .ok (mapProgs g d)
  | .prog n a => by
    intro h
    simp only [checkPip, h n a (.prog n a), mapProgs]
  | .group k c ds => by
    intro h
    simp only [checkPip, mapProgs]
    rw [checkPips_ok f g ds (fun d hd n a hh => h n a (.group k c ds d n a hd hh))]

theorem checkPips_ok (f : Str → Option Bool → Except CheckError (Option Bool)) (g : Str → Option Bool → Option Bool) : ∀ ds,
    (∀ d ∈ ds, ∀ n a, Has d n a → f n a = .ok (g n a)) → checkPips f ds = .ok (mapAll g ds)
  | [] => by intro _; rfl
  | d :: ds => by
    intro h
    simp only [checkPips, mapAll]
    rw [checkPip_ok f g d (h d (by simp)), checkPips_ok f g ds (fun e he => h e (by simp [he]))]
end

end Verif.Checkers
