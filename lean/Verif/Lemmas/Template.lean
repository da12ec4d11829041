import Verif.Spec.Template
import Verif.Props.ContextTree
import Verif.Props.Header
import Verif.Lemmas.Attributes
import Verif.Lemmas.Chain

/-!
# Lemmas about headers and templates
-/

namespace Verif.Template

open Verif Verif.Context Verif.Context.Spec Verif.Header Verif.Header.Spec Verif.Paths

theorem valueOf_eq (d : Dict Str Str) (k : Str) : valueOf d k = d.get? k := by
  induction d with
  | nil => rfl
  | cons kv d ih =>
    obtain ⟨k', v⟩ := kv
    simp only [valueOf, List.find?_cons, Dict.get?] at ih ⊢
    by_cases h : k' = k
    · simp [h]
    · simp [h, ih]

theorem updateTexts_get (d c : Dict Str Str) (hc : (c.map Prod.fst).Nodup) (k : Str) :
    (updateTexts d c).get? k = (c.get? k).or (d.get? k) := by
  unfold updateTexts
  induction c generalizing d with
  | nil => rfl
  | cons kv c ih =>
    obtain ⟨k', v⟩ := kv
    simp only [List.map_cons, List.nodup_cons] at hc
    rw [List.foldl_cons, ih _ hc.2, Dict.get?_set, Dict.get?]
    by_cases h : k' = k
    · subst h
      have : Dict.get? c k' = none := by
        cases hh : Dict.get? c k' with
        | none => rfl
        | some w => exact absurd (List.mem_map_of_mem (f := Prod.fst) (Dict.mem_of_get? c k' w hh)) hc.1
      simp [this]
    · simp [h, Ne.symm h]

theorem updateTexts_nodup (d c : Dict Str Str) (hd : (d.map Prod.fst).Nodup) : ((updateTexts d c).map Prod.fst).Nodup := by
  unfold updateTexts
  induction c generalizing d with
  | nil => exact hd
  | cons kv c ih => exact ih _ (Dict.keys_set_nodup d _ _ hd)

/-! ### The cut of header blocks -/

def cutOf (sp : Char → Bool) (s : Str) : Str × Str := ((loadFromString sp s).2, load sp s true)

theorem cuts_cutOf (sp : Char → Bool) (hsp : Spaces sp) : Cuts sp (cutOf sp) := by
  intro s hs
  obtain ⟨b, hd, h1, h2, h3⟩ := C09_block_and_rest sp hsp s hs
  refine ⟨b, h2, ?_⟩
  simpa [cutOf, h3] using h1

theorem load_block (sp : Char → Bool) (hsp : Spaces sp) (s : Str) (hs : HasBlock sp s) :
    loadFromString sp s = (some (cutOf sp s).2, (cutOf sp s).1) := by
  obtain ⟨b, hd, h1, h2, h3⟩ := C09_block_and_rest sp hsp s hs
  simp [cutOf, h3]

theorem load_whole (sp : Char → Bool) (s : Str) (hs : ¬ HasBlock sp s) : loadFromString sp s = (none, s) := (C09_no_block sp s hs).2.1

theorem readAs_eq (sp : Char → Bool) (s r : Str) : ReadAs sp (cutOf sp) s r ↔ r = (loadFromString sp s).2 := by
  constructor
  · intro h
    cases h with
    | block hs => rfl
    | whole hs => rw [load_whole sp s hs]
  · rintro rfl
    by_cases hs : HasBlock sp s
    · exact .block s hs
    · have := load_whole sp s hs
      rw [this]
      exact .whole s hs

theorem hasHeader_iff (sp : Char → Bool) (hsp : Spaces sp) (s : Str) : hasHeader sp s = true ↔ HasBlock sp s := C09_has_header sp hsp s

/-! ### The heap -/

theorem get?_tree_set (F : List (Str × Tree)) (k : Str) (t : Tree) (k' : Str) :
    lookup (Dict.set F k t) k' = if k' = k then some t else lookup F k' := by
  rw [lookup_eq, Dict.get?_set, lookup_eq]
  by_cases h : k = k' <;> simp [h, eq_comm]

theorem reads_setAtom (h : Heap) (ctx : Nat) (F : List (Str × Tree)) (fp : List Nat) (hr : Reads h (.dict F) (.ref ctx) fp) (hn : fp.Nodup)
    (k : Str) (a a' : Atom) (hk : lookup F k = some (.atom a)) :
    getKey h ctx k = some (.atom a) ∧ Reads (setKey h ctx k (.atom a')) (.dict (Dict.set F k (.atom a'))) (.ref ctx) fp ∧
      ∀ p, p ≠ ctx → (setKey h ctx k (.atom a'))[p]? = h[p]? := by
  have hlen := reads_bound h _ _ _ hr
  obtain ⟨c', d, fp', e0, e1, rfl, hdn, hl⟩ := hr
  cases e0
  rw [lookup_eq] at hk
  cases hd : d.get? k with
  | none => rw [(readsDict_new h F d fp' hl k hd).1] at hk; cases hk
  | some v =>
    obtain ⟨A, B, fk, t, rfl, e2, e3, e4⟩ := readsDict_split h F d fp' hl k v hd
    rw [e2] at hk
    cases hk
    obtain ⟨rfl, rfl⟩ := e3
    rw [List.nodup_cons] at hn
    refine ⟨by rw [getKey_dict h ctx d k e1, hd], ?_, ?_⟩
    · rw [setKey_dict h ctx d k _ e1]
      refine ⟨ctx, d.set k (.atom a'), A ++ ([] ++ B), rfl, ?_, rfl, Dict.keys_set_nodup d _ _ hdn, ?_⟩
      · rw [List.getElem?_set]; simp [hlen ctx (by simp)]
      · apply e4 _ (.atom a') (.atom a') [] (by exact ⟨rfl, rfl⟩)
        intro a ha
        exact set_frame _ _ _ _ (by rintro rfl; exact hn.1 (by simpa using ha))
    · intro p hp
      rw [setKey_dict h ctx d k _ e1]
      exact set_frame _ _ _ _ hp

theorem reads_prepend (h : Heap) (ctx : Nat) (F : List (Str × Tree)) (fp : List Nat) (hr : Reads h (.dict F) (.ref ctx) fp) (hn : fp.Nodup)
    (k : Str) (p : Nat) (l : List Value) (hp : getKey h ctx k = some (.ref p)) (hl : h[p]? = some (.list l)) (as : List Atom) :
    ∃ ts, lookup F k = some (.list ts) ∧
      Reads (h.set p (.list (as.map .atom ++ l))) (.dict (Dict.set F k (.list (as.map .atom ++ ts)))) (.ref ctx) fp := by
  have hlen := reads_bound h _ _ _ hr
  obtain ⟨c', d, fp', e0, e1, rfl, hdn, hd⟩ := hr
  cases e0
  rw [getKey_dict h ctx d k e1] at hp
  obtain ⟨A, B, fk, t, rfl, e2, e3, e4⟩ := readsDict_split h F d fp' hd k _ hp
  cases t with
  | atom a => obtain ⟨e, _⟩ := e3; cases e
  | set as' => obtain ⟨o, e, e', _⟩ := e3; cases e; rw [hl] at e'; cases e'
  | dict ts => obtain ⟨o, d', fp1, e, e', _⟩ := e3; cases e; rw [hl] at e'; cases e'
  | list ts =>
    obtain ⟨o, l', fp1, e, e', rfl, e5⟩ := e3
    cases e
    rw [hl] at e'
    cases e'
    refine ⟨ts, by rw [lookup_eq]; exact e2, ?_⟩
    rw [List.nodup_cons, List.nodup_append] at hn
    have hpc : p ≠ ctx := by rintro rfl; exact hn.1 (by simp)
    have hnd := hn.2.2.1
    have hAB : ∀ a ∈ A ++ B, a ≠ p := by
      intro a ha e
      subst e
      rcases List.mem_append.1 ha with ha | ha
      · exact hn.2.2.2 a ha a (by simp) rfl
      · simp only [List.cons_append, List.nodup_cons] at hnd
        exact hnd.1 (by simp [ha])
    refine ⟨ctx, d, A ++ ((p :: fp1) ++ B), rfl, ?_, rfl, hdn, ?_⟩
    · rw [set_frame _ _ _ _ (Ne.symm hpc)]; exact e1
    · have := e4 (h.set p (.list (as.map .atom ++ l))) (.ref p) (.list (as.map .atom ++ ts)) (p :: fp1) (by
        refine ⟨p, as.map .atom ++ l, fp1, rfl, ?_, rfl, ?_⟩
        · rw [List.getElem?_set]; simp [hlen p (by simp)]
        · have h1 := readsAll_append h _ _ _ _ [] fp1 (readsAll_atoms h as) e5
          refine readsAll_frame _ _ _ _ _ h1 fun a ha => set_frame _ _ _ _ ?_
          rintro rfl
          simp only [List.cons_append, List.nodup_cons] at hnd
          exact hnd.1 (List.mem_append_left _ (by simpa using ha))) (fun a ha => set_frame _ _ _ _ (hAB a ha))
      rwa [Context.set_same d k _ hp] at this

/-! ### The loop over the headers -/

theorem loadHeaders_spec (P : Py) (hP : ∀ s, ((P.strToDict s).map Prod.fst).Nodup) (sp : Char → Bool) (hsp : Spaces sp) (ctx : Nat)
    (keys : List Str) (hkn : keys.Nodup) (h : Heap) (E : Dict Str Str) (F : List (Str × Tree)) (fp : List Nat)
    (hr : Reads h (.dict F) (.ref ctx) fp) (hn : fp.Nodup)
    (hk : ∀ k ∈ keys, ∃ s, lookup F k = some (.atom (.str s)) ∧ HasBlock sp s) (hE : (E.map Prod.fst).Nodup) :
    ∃ F', Reads (loadHeaders P sp ctx h E keys).1 (.dict F') (.ref ctx) fp ∧
      (∀ p, p ≠ ctx → (loadHeaders P sp ctx h E keys).1[p]? = h[p]?) ∧
      (∀ k, k ∉ keys → lookup F' k = lookup F k) ∧
      (∀ k s, k ∈ keys → lookup F k = some (.atom (.str s)) → lookup F' k = some (.atom (.str (cutOf sp s).2))) ∧
      ((loadHeaders P sp ctx h E keys).2.map Prod.fst).Nodup ∧
      (∀ k v, (loadHeaders P sp ctx h E keys).2.get? k = some v → E.get? k = some v ∨
        ∃ e ∈ keys, ∃ s, lookup F e = some (.atom (.str s)) ∧ (P.strToDict (cutOf sp s).1).get? k = some v) ∧
      (∀ k, (E.get? k ≠ none ∨ ∃ e ∈ keys, ∃ s, lookup F e = some (.atom (.str s)) ∧ (P.strToDict (cutOf sp s).1).get? k ≠ none) →
        (loadHeaders P sp ctx h E keys).2.get? k ≠ none) := by
  induction keys generalizing h E F with
  | nil =>
    refine ⟨F, hr, fun p _ => rfl, fun k _ => rfl, fun k s hk => by simp at hk, hE, fun k v h => .inl h, ?_⟩
    rintro k (h | ⟨e, he, _⟩)
    · exact h
    · simp at he
  | cons k keys ih =>
    rw [List.nodup_cons] at hkn
    obtain ⟨s, hs, hb⟩ := hk k (by simp)
    obtain ⟨g1, g2, g3⟩ := reads_setAtom h ctx F fp hr hn k _ (.str (cutOf sp s).2) hs
    have hstep : loadHeaders P sp ctx h E (k :: keys) =
        loadHeaders P sp ctx (setKey h ctx k (.atom (.str (cutOf sp s).2))) (updateTexts E (P.strToDict (cutOf sp s).1)) keys := by
      rw [loadHeaders, g1]
      simp only [load_block sp hsp s hb]
    have hold : ∀ k' ∈ keys, lookup (Dict.set F k (.atom (.str (cutOf sp s).2))) k' = lookup F k' := by
      intro k' hk'
      rw [get?_tree_set, if_neg (by rintro rfl; exact hkn.1 hk')]
    obtain ⟨F', r1, r2, r3, r4, r5, r6, r7⟩ := ih hkn.2 _ (updateTexts E (P.strToDict (cutOf sp s).1)) _ g2
      (fun k' hk' => by rw [hold k' hk']; exact hk k' (by simp [hk'])) (updateTexts_nodup _ _ hE)
    rw [hstep]
    refine ⟨F', r1, fun p hp => (r2 p hp).trans (g3 p hp), ?_, ?_, r5, ?_, ?_⟩
    · intro k' hk'
      simp only [List.mem_cons, not_or] at hk'
      rw [r3 k' hk'.2, get?_tree_set, if_neg hk'.1]
    · intro k' s' hk' hs'
      by_cases he : k' = k
      · subst he
        rw [hs] at hs'
        cases hs'
        rw [r3 k' hkn.1, get?_tree_set, if_pos rfl]
      · have hm : k' ∈ keys := by simpa [he] using hk'
        exact r4 k' s' hm (by rw [hold k' hm]; exact hs')
    · intro k' v hv
      rcases r6 k' v hv with h1 | ⟨e, he, s', h1, h2⟩
      · rw [updateTexts_get _ _ (hP _)] at h1
        cases hd : (P.strToDict (cutOf sp s).1).get? k' with
        | none => rw [hd] at h1; exact .inl (by simpa using h1)
        | some w => rw [hd] at h1; exact .inr ⟨k, by simp, s, hs, by rw [hd]; simpa using h1⟩
      · exact .inr ⟨e, by simp [he], s', by rw [← hold e he]; exact h1, h2⟩
    · intro k' hk'
      apply r7
      rcases hk' with h1 | ⟨e, he, s', h1, h2⟩
      · left
        rw [updateTexts_get _ _ (hP _)]
        cases (P.strToDict (cutOf sp s).1).get? k' with
        | none => simpa using h1
        | some w => simp
      · rcases List.mem_cons.1 he with rfl | he
        · left
          rw [hs] at h1
          cases h1
          rw [updateTexts_get _ _ (hP _)]
          cases hd : (P.strToDict (cutOf sp s).1).get? k' with
          | none => exact absurd hd h2
          | some w => simp
        · exact .inr ⟨e, he, s', by rw [hold e he]; exact h1, h2⟩

theorem loadHeaders_getKey (P : Py) (sp : Char → Bool) (ctx : Nat) (keys : List Str) (h : Heap) (E : Dict Str Str) (k : Str) (hk : k ∉ keys) :
    getKey (loadHeaders P sp ctx h E keys).1 ctx k = getKey h ctx k := by
  induction keys generalizing h E with
  | nil => rfl
  | cons k' keys ih =>
    simp only [List.mem_cons, not_or] at hk
    have hset : ∀ v, getKey (setKey h ctx k' v) ctx k = getKey h ctx k := by
      intro v
      cases e : h[ctx]? with
      | none => simp [setKey, e]
      | some o =>
        cases o with
        | dict d =>
          have hlt : ctx < h.length := by
            apply Nat.lt_of_not_le
            intro hle
            rw [List.getElem?_eq_none hle] at e
            cases e
          rw [setKey_dict h ctx d k' v e, getKey_dict h ctx d k e, getKey_dict _ ctx (d.set k' v) k (by rw [List.getElem?_set]; simp [hlt]),
            Dict.get?_set, if_neg (Ne.symm hk.1)]
        | list l => simp [setKey, e]
        | set l => simp [setKey, e]
    rw [loadHeaders]
    split
    · rw [ih _ _ hk.2, hset]
    · exact ih _ _ hk.2

theorem getKey_lookup (h : Heap) (ctx : Nat) (F : List (Str × Tree)) (fp : List Nat) (hr : Reads h (.dict F) (.ref ctx) fp) (k : Str) :
    (lookup F k = none ∧ getKey h ctx k = none) ∨ ∃ t v fk, lookup F k = some t ∧ getKey h ctx k = some v ∧ Reads h t v fk := by
  obtain ⟨c', d, fp', e0, e1, rfl, hdn, hd⟩ := hr
  cases e0
  rw [getKey_dict h ctx d k e1, lookup_eq]
  cases hg : d.get? k with
  | none => exact .inl ⟨(readsDict_new h F d fp' hd k hg).1, rfl⟩
  | some v =>
    obtain ⟨A, B, fk, t, e, e2, e3, -⟩ := readsDict_split h F d fp' hd k v hg
    exact .inr ⟨t, v, fk, e2, rfl, e3⟩

theorem getKey_text (h : Heap) (ctx : Nat) (F : List (Str × Tree)) (fp : List Nat) (hr : Reads h (.dict F) (.ref ctx) fp) (k s : Str) :
    getKey h ctx k = some (.atom (.str s)) ↔ lookup F k = some (.atom (.str s)) := by
  rcases getKey_lookup h ctx F fp hr k with ⟨e1, e2⟩ | ⟨t, v, fk, e1, e2, e3⟩
  · rw [e1, e2]; simp
  · rw [e1, e2]
    cases t with
    | atom a => obtain ⟨rfl, _⟩ := e3; simp
    | list ts => obtain ⟨o, l, f, rfl, _⟩ := e3; simp
    | set ts => obtain ⟨o, rfl, _⟩ := e3; simp
    | dict ts => obtain ⟨o, l, f, rfl, _⟩ := e3; simp

theorem templateName_named (h : Heap) (ctx : Nat) (F : List (Str × Tree)) (fp : List Nat) (hr : Reads h (.dict F) (.ref ctx) fp)
    (H : Dict Str Str) (n : Str) : templateName h ctx H = some n ↔ Named F H n := by
  unfold templateName
  have hctx : ((match getKey h ctx "template".toList with
      | some (.atom (.str s)) => some s
      | _ => none) = some n) ↔ lookup F "template".toList = some (.atom (.str n)) := by
    rw [← getKey_text h ctx F fp hr]
    split
    · rename_i s hs
      rw [hs]
      simp
    · rename_i hs
      constructor
      · intro h'; cases h'
      · intro h'; exact absurd h' (hs n)
  cases hv : H.get? "template".toList with
  | none =>
    refine Iff.trans hctx ?_
    constructor
    · intro h'; exact .context n (.inl (by rw [valueOf_eq]; exact hv)) h'
    · intro h'
      cases h' with
      | header hne h2 => rw [valueOf_eq, hv] at h2; cases h2
      | context h1 h2 => exact h2
  | some w =>
    cases w with
    | nil =>
      refine Iff.trans hctx ?_
      constructor
      · intro h'; exact .context n (.inr (by rw [valueOf_eq]; exact hv)) h'
      · intro h'
        cases h' with
        | header hne h2 => rw [valueOf_eq, hv] at h2; cases h2; exact absurd rfl hne
        | context h1 h2 => exact h2
    | cons c t =>
      simp only [Option.some.injEq]
      constructor
      · rintro rfl; exact .header _ (by simp) (by rw [valueOf_eq]; exact hv)
      · intro h'
        cases h' with
        | header hne h2 => rw [valueOf_eq, hv] at h2; exact Option.some.inj h2
        | context h1 h2 => rw [valueOf_eq, hv] at h1; rcases h1 with h1 | h1 <;> cases h1

theorem headerKeys_spec (sp : Char → Bool) (hsp : Spaces sp) (h : Heap) (ctx : Nat) (F : List (Str × Tree)) (fp : List Nat)
    (hr : Reads h (.dict F) (.ref ctx) fp) :
    (headerKeys sp (Context.entries h ctx)).Nodup ∧
    ∀ k, k ∈ headerKeys sp (Context.entries h ctx) ↔ ∃ s, lookup F k = some (.atom (.str s)) ∧ HasBlock sp s := by
  obtain ⟨c', d, fp', e0, e1, rfl, hdn, hd⟩ := hr
  cases e0
  have hent : Context.entries h ctx = d := by simp [Context.entries, e1]
  rw [hent]
  constructor
  · unfold headerKeys
    exact (List.filter_sublist.map Prod.fst).nodup hdn
  · intro k
    unfold headerKeys
    simp only [List.mem_map, List.mem_filter, Prod.exists]
    constructor
    · rintro ⟨k', v, ⟨hm, hv⟩, rfl⟩
      have hget := Dict.get?_of_mem d hdn k' v hm
      obtain ⟨A, B, fk, t, e, e2, e3, -⟩ := readsDict_split h F d fp' hd k' v hget
      cases v with
      | ref o => simp at hv
      | atom a =>
        cases a with
        | str s =>
          refine ⟨s, ?_, (hasHeader_iff sp hsp s).1 (by simpa using hv)⟩
          rw [lookup_eq, e2]
          cases t with
          | atom a => obtain ⟨e, _⟩ := e3; cases e; rfl
          | list ts => obtain ⟨o, l, f, e, _⟩ := e3; cases e
          | set ts => obtain ⟨o, e, _⟩ := e3; cases e
          | dict ts => obtain ⟨o, l, f, e, _⟩ := e3; cases e
        | _ => simp at hv
    · rintro ⟨s, hs, hb⟩
      rw [lookup_eq] at hs
      cases hg : d.get? k with
      | none => rw [(readsDict_new h F d fp' hd k hg).1] at hs; cases hs
      | some v =>
        obtain ⟨A, B, fk, t, e, e2, e3, -⟩ := readsDict_split h F d fp' hd k v hg
        rw [e2] at hs
        cases hs
        obtain ⟨rfl, -⟩ := e3
        exact ⟨k, _, ⟨Dict.mem_of_get? d k _ hg, by simpa using (hasHeader_iff sp hsp s).2 hb⟩, rfl⟩

/-- What the loop over the headers does to the context. -/
theorem loadHeaders_all (P : Py) (hP : ∀ s, ((P.strToDict s).map Prod.fst).Nodup) (sp : Char → Bool) (hsp : Spaces sp) (ctx : Nat)
    (order : List Str → List Str) (horder : ∀ l, (order l).Perm l) (h : Heap) (F : List (Str × Tree)) (fp : List Nat)
    (hr : Reads h (.dict F) (.ref ctx) fp) (hn : fp.Nodup) :
    ∃ F0, Reads (loadHeaders P sp ctx h [] (order (headerKeys sp (Context.entries h ctx)))).1 (.dict F0) (.ref ctx) fp ∧
      (∀ p, p ≠ ctx → (loadHeaders P sp ctx h [] (order (headerKeys sp (Context.entries h ctx)))).1[p]? = h[p]?) ∧
      (∀ k, Stripped sp (cutOf sp) (lookup F k) (lookup F0 k)) ∧
      ((loadHeaders P sp ctx h [] (order (headerKeys sp (Context.entries h ctx)))).2.map Prod.fst).Nodup ∧
      Headers P sp (cutOf sp) F (loadHeaders P sp ctx h [] (order (headerKeys sp (Context.entries h ctx)))).2 := by
  obtain ⟨k1, k2⟩ := headerKeys_spec sp hsp h ctx F fp hr
  have hmem : ∀ k, k ∈ order (headerKeys sp (Context.entries h ctx)) ↔ ∃ s, lookup F k = some (.atom (.str s)) ∧ HasBlock sp s :=
    fun k => (horder _).mem_iff.trans (k2 k)
  obtain ⟨F0, r1, r2, r3, r4, r5, r6, r7⟩ := loadHeaders_spec P hP sp hsp ctx (order (headerKeys sp (Context.entries h ctx)))
    ((horder _).nodup_iff.2 k1) h [] F fp hr hn (fun k hk => (hmem k).1 hk) (by simp)
  refine ⟨F0, r1, r2, ?_, r5, ?_, ?_⟩
  · intro k
    by_cases hk : k ∈ order (headerKeys sp (Context.entries h ctx))
    · obtain ⟨s, hs, hb⟩ := (hmem k).1 hk
      rw [r4 k s hk hs, hs]
      exact .block s hb
    · rw [r3 k hk]
      by_cases ht : ∃ s, lookup F k = some (.atom (.str s))
      · obtain ⟨s, hs⟩ := ht
        rw [hs]
        exact .text s fun hb => hk ((hmem k).2 ⟨s, hs, hb⟩)
      · exact .other _ fun s hs => ht ⟨s, hs⟩
  · intro k v hv
    rw [valueOf_eq] at hv
    rcases r6 k v hv with h1 | ⟨e, he, s, h1, h2⟩
    · simp [Dict.get?] at h1
    · obtain ⟨s', hs', hb⟩ := (hmem e).1 he
      rw [h1] at hs'
      cases hs'
      exact ⟨e, s, h1, hb, by rw [valueOf_eq]; exact h2⟩
  · rintro k ⟨v, e, s, h1, hb, h2⟩
    rw [valueOf_eq] at h2 ⊢
    exact r7 k (.inr ⟨e, (hmem e).2 ⟨s, h1, hb⟩, s, h1, by rw [h2]; simp⟩)

/-! ### An update with texts -/

theorem lookup_texts (d : Dict Str Str) (k : Str) :
    lookup (d.map fun kv => (kv.1, Tree.atom (.str kv.2))) k = asText (valueOf d k) := by
  unfold lookup asText valueOf
  induction d with
  | nil => rfl
  | cons kv d ih =>
    simp only [List.map_cons, List.find?_cons]
    by_cases h : kv.1 = k
    · simp [h]
    · simp only [h, decide_false]; exact ih

theorem updateWith_spec (P : Py) (hP : ∀ s, ((P.strToDict s).map Prod.fst).Nodup) (replace : List Str) (h : Heap) (ctx : Nat)
    (F : List (Str × Tree)) (fp : List Nat) (hr : Reads h (.dict F) (.ref ctx) fp) (hn : fp.Nodup) (d : Dict Str Str)
    (hd : (d.map Prod.fst).Nodup) (h' : Heap) (hok : updateWith P replace h ctx d = .ok h') :
    ∃ F' fp', Reads h' (.dict F') (.ref ctx) fp' ∧ fp'.Nodup ∧
      ∀ k, Entry P (Updated P 4 [] true) (decide (k ∈ replace)) true (lookup F k) (asText (valueOf d k)) (lookup F' k) := by
  unfold updateWith at hok
  have hb := reads_bound h _ _ _ hr
  have hr1 : Reads (h ++ [.dict (d.map fun kv => (kv.1, Value.atom (.str kv.2)))]) (.dict F) (.ref ctx) fp :=
    reads_frame _ _ _ _ _ hr fun a ha => List.getElem?_append_left (hb a ha)
  have hrd : ∀ hp : Heap, ReadsDict hp (d.map fun kv => (kv.1, Tree.atom (.str kv.2))) (d.map fun kv => (kv.1, Value.atom (.str kv.2))) [] :=
    fun hp => readsDict_texts hp d
  have hr2 : Reads (h ++ [.dict (d.map fun kv => (kv.1, Value.atom (.str kv.2)))])
      (.dict (d.map fun kv => (kv.1, Tree.atom (.str kv.2)))) (.ref h.length) [h.length] :=
    ⟨h.length, _, [], rfl, by simp, rfl, by simpa [List.map_map, Function.comp_def] using hd, hrd _⟩
  have := C06_update_nested P hP replace true _ ctx h.length F _ fp [h.length] hr1 hr2 (by
    rw [List.nodup_append]
    refine ⟨hn, by simp, ?_⟩
    rintro a ha b hb' rfl
    simp only [List.mem_singleton] at hb'
    have := hb a ha
    omega)
  cases hu : Context.update P replace true (h ++ [.dict (d.map fun kv => (kv.1, Value.atom (.str kv.2)))]) ctx h.length with
  | error e => rw [hu] at hok; cases hok
  | ok h2 =>
    rw [hu] at hok this
    cases hok
    obtain ⟨⟨F', fp', a1, a2, a3⟩, -⟩ := this
    refine ⟨F', fp', a1, a2, fun k => ?_⟩
    have := a3.2 k
    rwa [lookup_texts] at this

/-! ### The entries of the context files -/

theorem fileDict (P : Py) (sp : Char → Bool) (disk : Disk) (f : Path) (s : Str) (hs : disk.text f = some s) (k v : Str) :
    InFile P sp (cutOf sp) disk f k v ↔ (P.strToDict (loadFromString sp ((disk.text f).getD [])).2).get? k = some v := by
  constructor
  · rintro ⟨s', r, e, h1, h2⟩
    rw [readAs_eq] at h1
    rw [e]
    rw [valueOf_eq, h1] at h2
    exact h2
  · intro h
    rw [hs] at h
    exact ⟨s, _, hs, (readAs_eq sp s _).2 rfl, by rw [valueOf_eq]; exact h⟩

theorem templateEntries_snoc (P : Py) (sp : Char → Bool) (disk : Disk) (l : List Path) (f : Path) :
    templateEntries P sp disk (l ++ [f]) =
      updateTexts (templateEntries P sp disk l) (P.strToDict (loadFromString sp ((disk.text f).getD [])).2) := by
  simp [templateEntries]

theorem templateEntries_nodup (P : Py) (sp : Char → Bool) (disk : Disk) (r : List Path) :
    ((templateEntries P sp disk r.reverse).map Prod.fst).Nodup := by
  induction r with
  | nil => simp [templateEntries]
  | cons f r ih =>
    rw [List.reverse_cons, templateEntries_snoc]
    exact updateTexts_nodup _ _ ih

theorem templateEntries_first (P : Py) (hP : ∀ s, ((P.strToDict s).map Prod.fst).Nodup) (sp : Char → Bool) (disk : Disk) (r : List Path)
    (hr : ∀ f ∈ r, ∃ s, disk.text f = some s) : FirstOf P sp (cutOf sp) disk r (templateEntries P sp disk r.reverse) := by
  induction r with
  | nil =>
    intro k v
    constructor
    · intro h; simp [templateEntries, valueOf] at h
    · rintro ⟨a, f, b, e, _⟩; simp at e
  | cons f r ih =>
    intro k v
    obtain ⟨s, hs⟩ := hr f (by simp)
    have hin := fileDict P sp disk f s hs
    have ih := ih (fun g hg => hr g (by simp [hg])) k v
    rw [List.reverse_cons, templateEntries_snoc, valueOf_eq, updateTexts_get _ _ (hP _)]
    rw [valueOf_eq] at ih
    cases hd : (P.strToDict (loadFromString sp ((disk.text f).getD [])).2).get? k with
    | some w =>
      simp only [Option.some_or, Option.some.injEq]
      constructor
      · rintro rfl
        exact ⟨[], f, r, rfl, (hin k w).2 hd, by simp⟩
      · rintro ⟨a, g, b, e, h1, h2⟩
        cases a with
        | nil =>
          simp only [List.nil_append, List.cons.injEq] at e
          rw [← e.1, hin, hd] at h1
          exact Option.some.inj h1
        | cons a0 a =>
          simp only [List.cons_append, List.cons.injEq] at e
          exact absurd ((hin k w).2 hd) (by rw [e.1]; exact h2 a0 (by simp) w)
    | none =>
      simp only [Option.none_or]
      rw [ih]
      constructor
      · rintro ⟨a, g, b, rfl, h1, h2⟩
        refine ⟨f :: a, g, b, rfl, h1, fun g' hg' w hw => ?_⟩
        rcases List.mem_cons.1 hg' with rfl | hg'
        · rw [hin, hd] at hw; cases hw
        · exact h2 g' hg' w hw
      · rintro ⟨a, g, b, e, h1, h2⟩
        cases a with
        | nil =>
          simp only [List.nil_append, List.cons.injEq] at e
          rw [← e.1, hin, hd] at h1
          cases h1
        | cons a0 a =>
          simp only [List.cons_append, List.cons.injEq] at e
          exact ⟨a, g, b, e.2, h1, fun g' hg' => h2 g' (by simp [hg'])⟩

/-! ### The context files -/

theorem div_context (p : Path) : div p (parse "context.txt".toList) = contextIn p := by
  have : parse "context.txt".toList = ⟨false, ["context.txt".toList]⟩ := by decide
  rw [this]
  simp [div, contextIn]

theorem contextFile_iff (disk : Disk) (p f : Path) : contextFile disk p = some f ↔ FileOf disk p f := by
  unfold contextFile
  simp only [div_context]
  have hp : parent p = dirOf p := rfl
  rw [hp]
  cases h1 : disk.text (contextIn p) with
  | some s =>
    simp only [Option.isSome_some, if_true, Option.some.injEq]
    constructor
    · rintro rfl; exact .own s h1
    · intro h
      cases h with
      | own => rfl
      | beside s' h2 => rw [h1] at h2; cases h2
  | none =>
    simp only [Option.isSome_none, Bool.false_eq_true, if_false]
    cases h2 : disk.text (contextIn (dirOf p)) with
    | some s =>
      simp only [Option.isSome_some, if_true, Option.some.injEq]
      constructor
      · rintro rfl; exact .beside s h1 h2
      · intro h
        cases h with
        | own s' h3 => rw [h1] at h3; cases h3
        | beside s' h3 => rfl
    | none =>
      simp only [Option.isSome_none, Bool.false_eq_true, if_false, reduceCtorEq, false_iff]
      intro h
      cases h with
      | own s' h3 => rw [h1] at h3; cases h3
      | beside s' h3 h4 => rw [h2] at h4; cases h4

theorem fileOf_text (disk : Disk) (p f : Path) (h : FileOf disk p f) : ∃ s, disk.text f = some s := by
  cases h with
  | own s h => exact ⟨s, h⟩
  | beside s _ h => exact ⟨s, h⟩

theorem filesOf_filterMap (disk : Disk) (ps : List Path) : FilesOf disk ps (ps.filterMap (contextFile disk)) := by
  induction ps with
  | nil => exact .nil
  | cons p ps ih =>
    cases h : contextFile disk p with
    | none =>
      rw [List.filterMap_cons_none h]
      exact .none p ps _ (fun f hf => by rw [(contextFile_iff disk p f).2 hf] at h; cases h) ih
    | some f =>
      rw [List.filterMap_cons_some h]
      exact .file p f ps _ ((contextFile_iff disk p f).1 h) ih

theorem uniq_snoc (l : List Path) (f : Path) : Lists.uniq id (l ++ [f]) = Lists.uniq id l ++ (if f ∈ l then [] else [f]) := by
  unfold Lists.uniq
  rw [Chain.uniqLoop_snoc]
  simp

theorem lastOnly_uniq (l : List Path) : LastOnly l (Lists.uniq id l.reverse).reverse := by
  induction l with
  | nil => exact .nil
  | cons f l ih =>
    rw [List.reverse_cons, uniq_snoc]
    by_cases h : f ∈ l
    · rw [if_pos (by simpa using h), List.append_nil]; exact .again f l _ h ih
    · rw [if_neg (by simpa using h), List.reverse_append]; exact .keep f l _ h ih

/-! ### The directories of templates -/

theorem findTemplatePaths_one (disk : Disk) (base name : Path) :
    findTemplatePaths disk [base] name =
      if disk.isDir (inDir base name) = true then [inDir base name]
      else if disk.isDir (dirOf (inDir base name)) = true then [dirOf (inDir base name)] else [] := by
  have hd : div base name = inDir base name := rfl
  have hp : parent (inDir base name) = dirOf (inDir base name) := rfl
  unfold findTemplatePaths
  simp only [List.foldl_cons, List.foldl_nil, hd, hp, List.not_mem_nil, not_false_eq_true, and_true]
  by_cases h : disk.isDir (inDir base name) = true
  · simp [h, Lists.uniq, Lists.uniqLoop]
  · simp only [h]
    by_cases h' : disk.isDir (dirOf (inDir base name)) = true
    · simp [h', Lists.uniq, Lists.uniqLoop]
    · simp [h', Lists.uniq, Lists.uniqLoop]

theorem findTemplatePaths_mem (disk : Disk) (base name q : Path) : q ∈ findTemplatePaths disk [base] name ↔ DirOf disk base name q := by
  rw [findTemplatePaths_one]
  by_cases h : disk.isDir (inDir base name) = true
  · rw [if_pos h]
    constructor
    · intro hq; rw [List.mem_singleton] at hq; subst hq; exact .own h
    · intro hq
      cases hq with
      | own => simp
      | parent h1 => rw [h] at h1; cases h1
  · rw [if_neg h]
    by_cases h' : disk.isDir (dirOf (inDir base name)) = true
    · rw [if_pos h']
      constructor
      · intro hq; rw [List.mem_singleton] at hq; subst hq; exact .parent (by simpa using h) h'
      · intro hq
        cases hq with
        | own h1 => exact absurd h1 h
        | parent => simp
    · rw [if_neg h']
      constructor
      · intro hq; simp at hq
      · intro hq
        cases hq with
        | own h1 => exact absurd h1 h
        | parent _ h1 => exact absurd h1 h'

theorem dirOf_unique (disk : Disk) (base name p q : Path) (h1 : DirOf disk base name p) (h2 : DirOf disk base name q) : p = q := by
  cases h1 with
  | own a => cases h2 with
    | own => rfl
    | parent b => rw [a] at b; cases b
  | parent a _ => cases h2 with
    | own b => rw [a] at b; cases b
    | parent => rfl

theorem findTemplatePaths_of (disk : Disk) (base name p : Path) (h : DirOf disk base name p) : findTemplatePaths disk [base] name = [p] := by
  rw [findTemplatePaths_one]
  cases h with
  | own a => rw [if_pos a]
  | parent a b => rw [if_neg (by simp [a]), if_pos b]

/-! ### Extends -/

/-- The statement stands at the start of the text. -/
def ExtendsHere (sp : Char → Bool) (s name : Str) : Prop :=
  ∃ spaces q q' after, s = "extends".toList ++ spaces ++ [q] ++ name ++ [q'] ++ after ∧
    (∀ c ∈ spaces, sp c = true) ∧ (q = '"' ∨ q = '\'') ∧ (q' = '"' ∨ q' = '\'') ∧ name ≠ [] ∧ '"' ∉ name ∧ '\'' ∉ name

theorem extendsAt_drop (sp : Char → Bool) (s : Str) (n : Nat) (name : Str) (hn : n ≤ s.length) :
    ExtendsAt sp s n name ↔ ExtendsHere sp (s.drop n) name := by
  constructor
  · rintro ⟨b, spc, q, q', a, rfl, rfl, h⟩
    exact ⟨spc, q, q', a, by simp [List.append_assoc], h⟩
  · rintro ⟨spc, q, q', a, e, h⟩
    refine ⟨s.take n, spc, q, q', a, ?_, by simp [hn], h⟩
    have := List.take_append_drop n s
    rw [e] at this
    refine this.symm.trans ?_
    simp [List.append_assoc]

theorem dropWhile_split (sp : Char → Bool) (a b : Str) (ha : ∀ c ∈ a, sp c = true) (hb : ∀ c, b.head? = some c → sp c = false) :
    (a ++ b).dropWhile sp = b := by
  induction a with
  | nil =>
    cases b with
    | nil => rfl
    | cons c b => simp [List.dropWhile_cons, hb c rfl]
  | cons c a ih =>
    simp only [List.cons_append, List.dropWhile_cons, ha c (by simp), if_true]
    exact ih fun c' hc' => ha c' (by simp [hc'])

theorem takeWhile_split (p : Char → Bool) (a b : Str) (ha : ∀ c ∈ a, p c = true) (hb : ∀ c, b.head? = some c → p c = false) :
    (a ++ b).takeWhile p = a := by
  induction a with
  | nil =>
    cases b with
    | nil => rfl
    | cons c b => simp [List.takeWhile_cons, hb c rfl]
  | cons c a ih =>
    simp only [List.cons_append, List.takeWhile_cons, ha c (by simp), if_true, List.cons.injEq, true_and]
    exact ih fun c' hc' => ha c' (by simp [hc'])

theorem extendsAt_iff (sp : Char → Bool) (hq : sp '"' = false ∧ sp '\'' = false) (s name : Str) :
    extendsAt sp s = some name ↔ ExtendsHere sp s name := by
  unfold extendsAt
  constructor
  · intro h
    by_cases hp : "extends".toList.isPrefixOf s = true
    · rw [if_pos hp] at h
      obtain ⟨t, rfl⟩ := List.isPrefixOf_iff_prefix.1 hp
      have hdrop : ("extends".toList ++ t).drop 7 = t := rfl
      rw [hdrop] at h
      have hsplit := List.takeWhile_append_dropWhile (p := sp) (l := t)
      cases hd : t.dropWhile sp with
      | nil => rw [hd] at h; cases h
      | cons q u =>
        rw [hd] at h hsplit
        simp only at h
        by_cases hqq : q = '"' ∨ q = '\''
        · rw [if_pos hqq] at h
          generalize hw : (u.takeWhile fun c => c ≠ '"' ∧ c ≠ '\'') = w at h
          have hu := List.takeWhile_append_dropWhile (p := fun c => decide (c ≠ '"' ∧ c ≠ '\'')) (l := u)
          have hw' : List.takeWhile (fun c => decide (c ≠ '"' ∧ c ≠ '\'')) u = w := hw
          rw [hw'] at hu
          have hmem : ∀ c ∈ w, c ≠ '"' ∧ c ≠ '\'' := by
            intro c hc
            rw [← hw] at hc
            have := List.all_eq_true.1 (List.all_takeWhile (p := fun c => decide (c ≠ '"' ∧ c ≠ '\'')) (l := u)) c hc
            simpa using this
          by_cases hcond : w ≠ [] ∧ u.drop w.length ≠ []
          · rw [if_pos hcond] at h
            cases h
            have hdw : u.drop name.length = u.dropWhile (fun c => decide (c ≠ '"' ∧ c ≠ '\'')) := by
              have := congrArg (List.drop name.length) hu
              rw [List.drop_left] at this
              exact this.symm
            rw [hdw] at hcond
            have hhead := List.head?_dropWhile_not (fun c => decide (c ≠ '"' ∧ c ≠ '\'')) u
            cases hu2 : u.dropWhile (fun c => decide (c ≠ '"' ∧ c ≠ '\'')) with
            | nil => exact absurd hu2 hcond.2
            | cons q' after =>
              rw [hu2] at hu hhead
              have hq' : q' = '"' ∨ q' = '\'' := by
                simp only [List.head?_cons, decide_eq_false_iff_not] at hhead
                by_cases h1 : q' = '"'
                · exact .inl h1
                · by_cases h2 : q' = '\''
                  · exact .inr h2
                  · simp [h1, h2] at hhead
              refine ⟨t.takeWhile sp, q, q', after, ?_, ?_, hqq, hq', hcond.1, fun hc => (hmem _ hc).1 rfl, fun hc => (hmem _ hc).2 rfl⟩
              · rw [← hu] at hsplit
                conv => lhs; rw [← hsplit]
                simp [List.append_assoc]
              · intro c hc
                exact List.all_eq_true.1 (List.all_takeWhile (p := sp) (l := t)) c hc
          · rw [if_neg hcond] at h; cases h
        · rw [if_neg hqq] at h; cases h
    · rw [if_neg hp] at h; cases h
  · rintro ⟨spc, q, q', a, rfl, h1, h2, h3, h4, h5, h6⟩
    have hp : "extends".toList.isPrefixOf ("extends".toList ++ spc ++ [q] ++ name ++ [q'] ++ a) = true :=
      List.isPrefixOf_iff_prefix.2 ⟨spc ++ [q] ++ name ++ [q'] ++ a, by simp [List.append_assoc]⟩
    rw [if_pos hp]
    have hdrop : ("extends".toList ++ spc ++ [q] ++ name ++ [q'] ++ a).drop 7 = spc ++ (q :: (name ++ (q' :: a))) := by
      have : "extends".toList ++ spc ++ [q] ++ name ++ [q'] ++ a = "extends".toList ++ (spc ++ (q :: (name ++ (q' :: a)))) := by
        simp [List.append_assoc]
      rw [this]; rfl
    rw [hdrop, dropWhile_split sp spc _ h1 (by
      intro c hc
      simp only [List.head?_cons, Option.some.injEq] at hc
      subst hc
      rcases h2 with rfl | rfl
      · exact hq.1
      · exact hq.2)]
    simp only
    rw [if_pos h2]
    have htw : ((name ++ (q' :: a)).takeWhile fun c => decide (c ≠ '"' ∧ c ≠ '\'')) = name := by
      apply takeWhile_split
      · intro c hc
        have e1 : c ≠ '"' := by rintro rfl; exact h5 hc
        have e2 : c ≠ '\'' := by rintro rfl; exact h6 hc
        simp [e1, e2]
      · intro c hc
        simp only [List.head?_cons, Option.some.injEq] at hc
        subst hc
        rcases h3 with rfl | rfl <;> simp
    rw [htw, if_pos ⟨h4, by simp⟩]

theorem extendsName_iff (sp : Char → Bool) (hq : sp '"' = false ∧ sp '\'' = false) (s name : Str) :
    extendsName sp s = some name ↔ ∃ n ≤ s.length, ExtendsHere sp (s.drop n) name ∧ ∀ m < n, ∀ name', ¬ ExtendsHere sp (s.drop m) name' := by
  induction s with
  | nil =>
    constructor
    · intro h; cases h
    · rintro ⟨n, hn, ⟨spc, q, q', a, e, _⟩, _⟩
      simp at e
  | cons c t ih =>
    rw [extendsName]
    cases he : extendsAt sp (c :: t) with
    | some w =>
      have hw := (extendsAt_iff sp hq _ _).1 he
      simp only [Option.some.injEq]
      constructor
      · rintro rfl
        exact ⟨0, by simp, hw, by simp⟩
      · rintro ⟨n, hn, h1, h2⟩
        cases n with
        | zero =>
          have := (extendsAt_iff sp hq _ _).2 h1
          rw [List.drop_zero, he] at this
          exact Option.some.inj this
        | succ n => exact absurd hw (h2 0 (by omega) w)
    | none =>
      simp only
      rw [ih]
      have hno : ∀ w, ¬ ExtendsHere sp (c :: t) w := by
        intro w hw
        rw [(extendsAt_iff sp hq _ _).2 hw] at he
        cases he
      constructor
      · rintro ⟨n, hn, h1, h2⟩
        refine ⟨n + 1, by simp; omega, by simpa using h1, fun m hm w => ?_⟩
        cases m with
        | zero => exact hno w
        | succ m => simpa using h2 m (by omega) w
      · rintro ⟨n, hn, h1, h2⟩
        cases n with
        | zero => exact absurd h1 (hno _)
        | succ n => exact ⟨n, by simpa using hn, by simpa using h1, fun m hm w => by simpa using h2 (m + 1) (by omega) w⟩

theorem extendsName_extends (sp : Char → Bool) (hq : sp '"' = false ∧ sp '\'' = false) (s name : Str) :
    extendsName sp s = some name ↔ Extends sp s name := by
  rw [extendsName_iff sp hq]
  have hle : ∀ n w, ExtendsAt sp s n w → n ≤ s.length := by
    rintro n w ⟨b, spc, q, q', a, rfl, rfl, _⟩
    simp
  constructor
  · rintro ⟨n, hn, h1, h2⟩
    refine ⟨n, (extendsAt_drop sp s n name hn).2 h1, fun m w hm => ?_⟩
    apply Nat.le_of_not_lt
    intro hlt
    exact h2 m hlt w ((extendsAt_drop sp s m w (by omega)).1 hm)
  · rintro ⟨n, h1, h2⟩
    have hn := hle n name h1
    refine ⟨n, hn, (extendsAt_drop sp s n name hn).1 h1, fun m hm w hw => ?_⟩
    have := h2 m w ((extendsAt_drop sp s m w (by omega)).2 hw)
    omega

/-! ### The templates a template extends -/

theorem join_ne_dot (l : List Str) (hl : l ≠ []) (h : ∀ c ∈ l, c ≠ [] ∧ c ≠ ['.']) : join ['/'] l ≠ ['.'] := by
  match l, hl with
  | [a], _ => simpa [join] using (h a (by simp)).2
  | a :: b :: l, _ =>
    intro e
    have hj : join ['/'] (a :: b :: l) = a ++ ['/'] ++ join ['/'] (b :: l) := rfl
    rw [hj] at e
    have : '/' ∈ (['.'] : Str) := by rw [← e]; simp
    simp at this

theorem toStr_parents (n : Str) :
    toStr (parent (parent (parse n))) ≠ ['.'] ↔ ((parse n).abs = true ∨ 2 < (parse n).parts.length) := by
  have hparts : ∀ c ∈ (parse n).parts, c ≠ [] ∧ c ≠ ['.'] := by
    intro c hc
    simp only [parse, List.mem_filter] at hc
    simpa using hc.2
  unfold toStr parent
  simp only
  cases ha : (parse n).abs with
  | true => simp
  | false =>
    simp only [Bool.false_eq_true, if_false, false_or]
    by_cases hl : (parse n).parts.dropLast.dropLast = []
    · rw [if_pos hl]
      have : ((parse n).parts.dropLast.dropLast).length = 0 := by rw [hl]; rfl
      simp only [List.length_dropLast] at this
      constructor
      · intro h; exact absurd rfl h
      · intro h; omega
    · rw [if_neg hl]
      have : 0 < ((parse n).parts.dropLast.dropLast).length := List.length_pos_iff.2 hl
      simp only [List.length_dropLast] at this
      constructor
      · intro _; omega
      · intro _
        exact join_ne_dot _ hl fun c hc => hparts c (List.dropLast_subset _ (List.dropLast_subset _ hc))

theorem findParents_mem (sp : Char → Bool) (hq : sp '"' = false ∧ sp '\'' = false) (disk : Disk) (base p q : Path) :
    q ∈ findParents sp disk [base] p ↔ ParentOf sp disk base p q := by
  unfold findParents
  rw [Lists.mem_uniq, List.mem_flatMap]
  constructor
  · rintro ⟨n, hn, hm⟩
    rw [List.mem_filterMap] at hn
    obtain ⟨f, hf, hb⟩ := hn
    rw [Option.bind_eq_some_iff] at hb
    obtain ⟨s, hs, he⟩ := hb
    by_cases hc : toStr (parent (parent (parse n))) ≠ ['.']
    · simp only [if_pos hc] at hm
      exact ⟨f, s, n, hf, hs, (extendsName_extends sp hq s n).1 he, (toStr_parents n).1 hc, (findTemplatePaths_mem _ _ _ _).1 hm⟩
    · simp only [if_neg hc, List.not_mem_nil] at hm
  · rintro ⟨f, s, n, hf, hs, he, hc, hd⟩
    refine ⟨n, ?_, ?_⟩
    · rw [List.mem_filterMap]
      exact ⟨f, hf, by rw [hs]; exact (extendsName_extends sp hq s n).2 he⟩
    · simp only [if_pos ((toStr_parents n).2 hc)]
      exact (findTemplatePaths_mem _ _ _ _).2 hd

theorem uniq_head (l : List Path) : (Lists.uniq id l).head? = l.head? := by
  cases l with
  | nil => rfl
  | cons a l => simp [Lists.uniq, Lists.uniqLoop]

theorem templatePaths_searched (sp : Char → Bool) (hq : sp '"' = false ∧ sp '\'' = false) (disk : Disk) (base name : Path) :
    Searched sp disk base name (templatePaths sp disk [base] name) := by
  unfold templatePaths
  refine ⟨Lists.uniq_nodup _, ?_, ?_⟩
  · intro q
    rw [Lists.mem_uniq, List.mem_append, List.mem_flatMap, findTemplatePaths_mem]
    constructor
    · rintro (h | ⟨p, hp, h⟩)
      · exact .inl h
      · exact .inr ⟨p, (findTemplatePaths_mem _ _ _ _).1 hp, (findParents_mem sp hq _ _ _ _).1 h⟩
    · rintro (h | ⟨p, hp, h⟩)
      · exact .inl h
      · exact .inr ⟨p, (findTemplatePaths_mem _ _ _ _).2 hp, (findParents_mem sp hq _ _ _ _).2 h⟩
  · intro p hp
    simp only
    rw [uniq_head, findTemplatePaths_of disk base name p hp]
    rfl

end Verif.Template
