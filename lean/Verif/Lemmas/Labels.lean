import Verif.Spec.Labels
import Verif.Lemmas.Dict
import Verif.Lemmas.Strings

/-!
# Lemmas on labels
-/

set_option linter.unusedSimpArgs false
set_option linter.unusedVariables false

namespace Verif.Labels

open Verif Verif.Labels.Spec

/-! ### Order by document -/

theorem sortedInsert_congr {α : Type} (key key' : α → Nat) (a : α) (l : List α)
    (h : ∀ b ∈ l, key a ≤ key b ↔ key' a ≤ key' b) : sortedInsert key a l = sortedInsert key' a l := by
  induction l with
  | nil => rfl
  | cons b l ih =>
    simp only [sortedInsert]
    have := h b (by simp)
    rw [ih (fun c hc => h c (by simp [hc]))]
    by_cases hab : key a ≤ key b
    · rw [if_pos hab, if_pos (this.1 hab)]
    · rw [if_neg hab, if_neg (fun h => hab (this.2 h))]

theorem sortedBy_congr {α : Type} (key key' : α → Nat) (l : List α)
    (h : ∀ a ∈ l, ∀ b ∈ l, key a ≤ key b ↔ key' a ≤ key' b) : sortedBy key l = sortedBy key' l := by
  induction l with
  | nil => rfl
  | cons a l ih =>
    simp only [sortedBy]
    rw [ih (fun x hx y hy => h x (by simp [hx]) y (by simp [hy]))]
    apply sortedInsert_congr
    intro b hb
    exact h a (by simp) b (by simp [(mem_sortedBy key' l b).1 hb])

theorem sortedInsert_append {α : Type} (key : α → Nat) (a : α) (l l' : List α) (h : ∀ b ∈ l, key b < key a) :
    sortedInsert key a (l ++ l') = l ++ sortedInsert key a l' := by
  induction l with
  | nil => rfl
  | cons b l ih =>
    simp only [List.cons_append, sortedInsert]
    rw [if_neg (by have := h b (by simp); omega), ih (fun c hc => h c (by simp [hc]))]

theorem sortedBy_split {α : Type} (key : α → Nat) (l : List α) :
    sortedBy key l = l.filter (fun a => key a = 0) ++ sortedBy key (l.filter fun a => key a ≠ 0) := by
  induction l with
  | nil => rfl
  | cons a l ih =>
    simp only [sortedBy]
    rw [ih]
    by_cases h : key a = 0
    · have e1 : (a :: l).filter (fun a => decide (key a = 0)) = a :: l.filter (fun a => decide (key a = 0)) := by
        simp [h]
      have e2 : (a :: l).filter (fun a => decide (key a ≠ 0)) = l.filter (fun a => decide (key a ≠ 0)) := by
        simp [h]
      rw [e1, e2, List.cons_append]
      generalize l.filter (fun a => decide (key a = 0)) ++ sortedBy key (l.filter fun a => decide (key a ≠ 0)) = m
      cases m with
      | nil => rfl
      | cons b m => simp only [sortedInsert]; rw [if_pos (by omega)]
    · have e1 : (a :: l).filter (fun a => decide (key a = 0)) = l.filter (fun a => decide (key a = 0)) := by
        simp [h]
      have e2 : (a :: l).filter (fun a => decide (key a ≠ 0)) = a :: l.filter (fun a => decide (key a ≠ 0)) := by
        simp [h]
      rw [e1, e2]
      simp only [sortedBy]
      apply sortedInsert_append
      intro b hb
      simp at hb
      omega

theorem reorder_list (ids : List Str) (ls : List Label) :
    sortedBy (fun l => ids.idxOf l.docId) (ls.filter fun l => l.docId ∈ ids) = byDocument ids ls := by
  induction ids generalizing ls with
  | nil =>
    have : ls.filter (fun l => decide (l.docId ∈ ([] : List Str))) = [] := by simp [List.filter_eq_nil_iff]
    rw [this]; rfl
  | cons d ids ih =>
    rw [sortedBy_split, byDocument, ← ih]
    congr 1
    · rw [List.filter_filter]
      apply List.filter_congr
      intro l _
      by_cases h : l.docId = d
      · simp [h, List.idxOf_cons]
      · have : ¬ (d == l.docId) = true := by simpa using Ne.symm h
        simp [h, List.idxOf_cons, this]
    · rw [List.filter_filter, List.filter_filter]
      have e : ls.filter (fun l => decide (List.idxOf l.docId (d :: ids) ≠ 0) && decide (l.docId ∈ d :: ids)) =
          ls.filter (fun l => decide (l.docId ∈ ids) && decide (l.docId ≠ d)) := by
        apply List.filter_congr
        intro l _
        by_cases h : l.docId = d
        · simp [h, List.idxOf_cons]
        · have : ¬ (d == l.docId) = true := by simpa using Ne.symm h
          simp [h, List.idxOf_cons, this]
      rw [e]
      apply sortedBy_congr
      intro a ha b hb
      simp at ha hb
      have h1 : ¬ (d == a.docId) = true := by simpa using Ne.symm ha.2.2
      have h2 : ¬ (d == b.docId) = true := by simpa using Ne.symm hb.2.2
      simp [List.idxOf_cons, h1, h2]

theorem reorder_eq (docIds : Option (List Str)) (ls : List Label) :
    reorder docIds ls = byDocument (docIds.getD (ls.map Label.docId)) ls := by
  cases docIds <;> exact reorder_list _ _

theorem byDocument_mem (ids : List Str) (ls : List Label) (l : Label) :
    l ∈ byDocument ids ls ↔ l ∈ ls ∧ l.docId ∈ ids := by
  induction ids generalizing ls with
  | nil => simp [byDocument]
  | cons d ids ih =>
    simp only [byDocument, List.mem_append, List.mem_filter, ih]
    simp
    by_cases h : l.docId = d <;> simp [h]

/-- The labels of one document keep their order. -/
theorem byDocument_filter (ids : List Str) (ls : List Label) (d : Str) (h : d ∈ ids) :
    (byDocument ids ls).filter (fun l => l.docId = d) = ls.filter (fun l => l.docId = d) := by
  induction ids generalizing ls with
  | nil => simp at h
  | cons e ids ih =>
    simp only [byDocument, List.filter_append, List.filter_filter]
    by_cases hd : d = e
    · subst hd
      have : (byDocument ids (ls.filter fun l => decide (l.docId ≠ d))).filter (fun l => decide (l.docId = d)) = [] := by
        rw [List.filter_eq_nil_iff]
        intro l hl
        rw [byDocument_mem] at hl
        simpa using (List.mem_filter.1 hl.1).2
      rw [this, List.append_nil]
      apply List.filter_congr
      intro l _; simp
    · simp [hd] at h
      rw [ih _ h, List.filter_filter]
      have : ls.filter (fun l => decide (l.docId = d) && decide (l.docId = e)) = [] := by
        rw [List.filter_eq_nil_iff]
        intro l _
        simp
        rintro rfl
        simpa using hd
      rw [this, List.nil_append]
      apply List.filter_congr
      intro l _
      by_cases h' : l.docId = d
      · simp [h', hd]
      · simp [h']

theorem byDocument_perm (ids : List Str) (ls : List Label) :
    (byDocument ids ls).Perm (ls.filter fun l => l.docId ∈ ids) := by
  rw [← reorder_list]
  exact sortedBy_perm _ _

/-! ### What a registration keeps -/

theorem setOrders_given (resets : Dict Str (List Str)) (c : Counter) (ls : List Label) :
    (setOrders resets c ls).map given = ls.map given := by
  induction ls generalizing c with
  | nil => rfl
  | cons l ls ih =>
    simp only [setOrders]
    split
    · simp [ih]
    · simp [ih]; rfl

theorem setLinks_given (cur : Links) (ls : List Label) : (setLinks cur ls).map given = ls.map given := by
  induction ls generalizing cur with
  | nil => rfl
  | cons l ls ih =>
    simp only [setLinks]
    split <;> simp [ih]
    rfl

theorem setLinks_order (cur : Links) (ls : List Label) : (setLinks cur ls).map Label.order = ls.map Label.order := by
  induction ls generalizing cur with
  | nil => rfl
  | cons l ls ih =>
    simp only [setLinks]
    split <;> simp [ih]

theorem setOrders_links (resets : Dict Str (List Str)) (c : Counter) (ls : List Label) :
    (setOrders resets c ls).map Label.links = ls.map Label.links := by
  induction ls generalizing c with
  | nil => rfl
  | cons l ls ih =>
    simp only [setOrders]
    split <;> simp [ih]

theorem registerLabels_given (env : Env) (ls : List Label) :
    (registerLabels env ls).map given = (byDocument (env.docIds.getD (ls.map Label.docId)) ls).map given := by
  rw [registerLabels, setLinks_given, setOrders_given, reorder_eq]

/-- The key of what is given. -/
def gkey (g : Given) : Key := (g.docId, g.id)

theorem keys_of_given (ls : List Label) :
    ls.map (fun l => ((l.docId, l.id) : Key)) = (ls.map given).map gkey := by
  rw [List.map_map]; rfl

theorem toDict_loop (ls : List Label) (d : Dict Key Label)
    (h : (d.keys ++ ls.map (fun l => ((l.docId, l.id) : Key))).Nodup) :
    ls.foldl (fun d l => Dict.set d (l.docId, l.id) l) d = d ++ ls.map (fun l => ((l.docId, l.id), l)) := by
  induction ls generalizing d with
  | nil => simp
  | cons l ls ih =>
    simp only [List.foldl_cons, List.map_cons]
    have hn : (l.docId, l.id) ∉ d.keys := by
      intro hm
      have := (List.nodup_append.1 h).2.2 _ hm (l.docId, l.id) (by simp)
      exact this rfl
    rw [Dict.set_new d _ _ hn, ih]
    · simp
    · simp only [Dict.keys, List.map_append, List.map_cons, List.map_nil, List.append_assoc, List.cons_append,
        List.nil_append] at h ⊢
      exact h

theorem toDict_eq (ls : List Label) (h : (ls.map (fun l => ((l.docId, l.id) : Key))).Nodup) :
    toDict ls = ls.map (fun l => ((l.docId, l.id), l)) := by
  simpa [toDict] using toDict_loop ls [] (by simpa using h)

/-! ### The invariant of the manager -/

/-- Keys are distinct and belong to their labels; identities are distinct and used up. -/
structure Inv (m : Manager) : Prop where
  nodup : (Dict.keys m.labels).Nodup
  key : ∀ k l, (k, l) ∈ m.labels → k = (l.docId, l.id)
  fresh : ∀ k l, (k, l) ∈ m.labels → l.uid < m.next
  uids : (m.labels.map fun kl => kl.2.uid).Nodup

theorem inv_init : Inv Manager.init := by
  constructor <;> simp [Manager.init, Dict.keys]

theorem labels_eq_of_key (d : Dict Key Label) (h : ∀ k l, (k, l) ∈ d → k = (l.docId, l.id)) :
    d = (d.map Prod.snd).map (fun l => ((l.docId, l.id), l)) := by
  induction d with
  | nil => rfl
  | cons kl d ih =>
    obtain ⟨k, l⟩ := kl
    simp only [List.map_cons]
    rw [← ih (fun k l h' => h k l (by simp [h'])), ← h k l (by simp)]

theorem keys_eq_of_key (d : Dict Key Label) (h : ∀ k l, (k, l) ∈ d → k = (l.docId, l.id)) :
    Dict.keys d = (d.map Prod.snd).map (fun l => ((l.docId, l.id) : Key)) := by
  conv => lhs; rw [labels_eq_of_key d h]
  simp [Dict.keys]

theorem Inv.values_nodup {m : Manager} (h : Inv m) :
    ((m.labels.map Prod.snd).map (fun l => ((l.docId, l.id) : Key))).Nodup := by
  rw [← keys_eq_of_key m.labels h.key]; exact h.nodup

theorem registered_nodup {m : Manager} (h : Inv m) (env : Env) :
    ((registerLabels env (m.labels.map Prod.snd)).map (fun l => ((l.docId, l.id) : Key))).Nodup := by
  rw [keys_of_given, registerLabels_given, ← keys_of_given]
  have hp := (byDocument_perm (env.docIds.getD ((m.labels.map Prod.snd).map Label.docId)) (m.labels.map Prod.snd)).map
    (fun l => ((l.docId, l.id) : Key))
  rw [hp.nodup_iff]
  exact h.values_nodup.sublist (List.filter_sublist.map _)

/-- The labels after a registration. -/
theorem register_labels {m : Manager} (h : Inv m) (env : Env) (hr : m.registered = false) :
    (m.register env).labels.map Prod.snd = registerLabels env (m.labels.map Prod.snd) ∧
    (m.register env).labels = (registerLabels env (m.labels.map Prod.snd)).map (fun l => ((l.docId, l.id), l)) := by
  simp only [Manager.register, hr, Bool.false_eq_true, if_false]
  rw [toDict_eq _ (registered_nodup h env)]
  refine ⟨?_, rfl⟩
  rw [List.map_map]
  exact List.map_id _

theorem Inv.register {m : Manager} (h : Inv m) (env : Env) : Inv (m.register env) := by
  cases hr : m.registered with
  | true => simpa [Manager.register, hr] using h
  | false =>
    obtain ⟨e1, e2⟩ := register_labels h env hr
    have hnext : (m.register env).next = m.next := by simp [Manager.register, hr]
    -- identities
    have hu : ((registerLabels env (m.labels.map Prod.snd)).map Label.uid).Perm
        (((m.labels.map Prod.snd).filter fun l =>
          l.docId ∈ env.docIds.getD ((m.labels.map Prod.snd).map Label.docId)).map Label.uid) := by
      have : (registerLabels env (m.labels.map Prod.snd)).map Label.uid =
          ((registerLabels env (m.labels.map Prod.snd)).map given).map Given.uid := by rw [List.map_map]; rfl
      rw [this, registerLabels_given, List.map_map]
      exact (byDocument_perm _ _).map _
    refine ⟨?_, ?_, ?_, ?_⟩
    · rw [e2]
      have := registered_nodup h env
      unfold Dict.keys
      rw [List.map_map]
      exact this
    · intro k l hkl
      rw [e2] at hkl
      rw [List.mem_map] at hkl
      obtain ⟨l', h1, h2⟩ := hkl
      simp only [Prod.mk.injEq] at h2
      obtain ⟨h2, rfl⟩ := h2
      exact h2.symm
    · intro k l hkl
      rw [e2] at hkl
      rw [List.mem_map] at hkl
      obtain ⟨l', h1, h2⟩ := hkl
      simp only [Prod.mk.injEq] at h2
      obtain ⟨h2, rfl⟩ := h2
      have : l'.uid ∈ (registerLabels env (m.labels.map Prod.snd)).map Label.uid := List.mem_map_of_mem h1
      have := hu.mem_iff.1 this
      simp at this
      obtain ⟨l2, ⟨⟨d1, d2, h4⟩, _⟩, h5⟩ := this
      rw [hnext, ← h5]
      exact h.fresh _ _ h4
    · rw [e2, List.map_map]
      have : ((fun kl : Key × Label => kl.2.uid) ∘ fun l : Label => (((l.docId, l.id) : Key), l)) = Label.uid := rfl
      rw [this, hu.nodup_iff]
      have h2 := h.uids
      have e3 : m.labels.map (fun kl => kl.2.uid) = (m.labels.map Prod.snd).map Label.uid := by
        rw [List.map_map]; rfl
      rw [e3] at h2
      exact h2.sublist (List.filter_sublist.map _)

theorem Inv.reset {m : Manager} (h : Inv m) (ids : Option (List Str)) : Inv (m.reset ids) := by
  cases ids with
  | none => constructor <;> simp [Manager.reset, Dict.keys]
  | some ids =>
    have hsub : (m.reset (some ids)).labels.Sublist m.labels := List.filter_sublist
    refine ⟨h.nodup.sublist (hsub.map _), ?_, ?_, h.uids.sublist (hsub.map _)⟩
    · intro k l hkl; exact h.key k l (hsub.subset hkl)
    · intro k l hkl; exact h.fresh k l (hsub.subset hkl)

theorem Inv.addLabel {m : Manager} (h : Inv m) (sep id : Str) (kind : Option (List Str)) (doc : Str) (content : Bool)
    (title : Str) : Inv (m.addLabel sep id kind doc content title).1 := by
  unfold Manager.addLabel
  simp only
  split
  · exact ⟨h.nodup, h.key, h.fresh, h.uids⟩
  · rename_i hh
    have hn : ((parseId sep id).1.getD doc, (parseId sep id).2) ∉ Dict.keys m.labels := by
      rw [← Dict.has_iff]; exact hh
    simp only
    rw [Dict.set_new _ _ _ hn]
    refine ⟨?_, ?_, ?_, ?_⟩
    · simp only [Dict.keys, List.map_append, List.map_cons, List.map_nil]
      rw [List.nodup_append]
      refine ⟨h.nodup, by simp, ?_⟩
      intro a ha b hb
      simp at hb
      subst hb
      rintro rfl
      exact hn ha
    · intro k l hkl
      simp at hkl
      rcases hkl with hkl | ⟨rfl, rfl⟩
      · exact h.key k l hkl
      · rfl
    · intro k l hkl
      simp at hkl
      rcases hkl with hkl | ⟨rfl, rfl⟩
      · have := h.fresh k l hkl; simp; omega
      · simp
    · simp only [List.map_append, List.map_cons, List.map_nil]
      rw [List.nodup_append]
      refine ⟨h.uids, by simp, ?_⟩
      intro a ha b hb
      simp at ha hb
      obtain ⟨d1, d2, l, hl, rfl⟩ := ha
      have := h.fresh _ _ hl
      omega

theorem inv_run (sep : Str) (ops : List Op) (m : Manager) (h : Inv m) : Inv (m.run sep ops) := by
  unfold Manager.run
  induction ops generalizing m with
  | nil => exact h
  | cons op ops ih =>
    simp only [List.foldl_cons]
    apply ih
    cases op with
    | add id kind doc content title => exact h.addLabel sep id kind doc content title
    | reset ids => exact h.reset ids
    | register env => exact h.register env

/-! ### Numbers -/

theorem number_nil (resets : Dict Str (List Str)) (k : Str) : number resets [] k = 0 := rfl

theorem number_snoc (resets : Dict Str (List Str)) (evs : List Str) (e k : Str) :
    number resets (evs ++ [e]) k =
      if Resets resets e k then 0 else number resets evs k + (if e = k then 1 else 0) := by
  unfold number
  simp only [List.reverse_append, List.reverse_cons, List.reverse_nil, List.nil_append, List.cons_append,
    List.takeWhile_cons]
  by_cases h : Resets resets e k
  · simp [h]
  · simp only [h, not_false_eq_true, decide_true, if_true, if_false, List.count_cons]
    simp

theorem foldl_zero (zs : List Str) (c : Counter) (k : Str) :
    (zs.foldl (fun c z => c.set z 0) c) k = if k ∈ zs then 0 else c k := by
  induction zs generalizing c with
  | nil => simp
  | cons z zs ih =>
    simp only [List.foldl_cons, ih, Counter.set]
    by_cases h : k ∈ zs
    · simp [h]
    · by_cases hz : k = z <;> simp [h, hz]

/-- One step of the counter. -/
def bump (resets : Dict Str (List Str)) (c : Counter) (k : Str) : Counter :=
  match resets.get? k with
  | some zs => zs.foldl (fun c z => c.set z 0) (c.set k (c k + 1))
  | none => c.set k (c k + 1)

theorem bump_number (resets : Dict Str (List Str)) (c : Counter) (evs : List Str)
    (h : ∀ k, c k = number resets evs k) (e k : Str) :
    bump resets c e k = number resets (evs ++ [e]) k := by
  rw [number_snoc, ← h k]
  unfold bump
  cases hr : resets.get? e with
  | none =>
    have : ¬ Resets resets e k := by rintro ⟨zs, h1, _⟩; rw [hr] at h1; simp at h1
    simp only [this, if_false, Counter.set]
    by_cases hk : k = e
    · subst hk; simp
    · simp [hk, Ne.symm hk]
  | some zs =>
    simp only [foldl_zero]
    by_cases hk : k ∈ zs
    · have : Resets resets e k := ⟨zs, hr, hk⟩
      simp [hk, this]
    · have : ¬ Resets resets e k := by
        rintro ⟨zs', h1, h2⟩; rw [hr] at h1; simp at h1; subst h1; exact hk h2
      simp only [hk, this, if_false, Counter.set]
      by_cases hke : k = e
      · subst hke; simp
      · simp [hke, Ne.symm hke]

theorem countKinds_number (resets : Dict Str (List Str)) (ks : List Str) (c : Counter) (evs : List Str)
    (h : ∀ k, c k = number resets evs k) :
    (∀ k, (countKinds resets c ks).1 k = number resets (evs ++ ks) k) ∧
    (countKinds resets c ks).2.length = ks.length ∧
    ∀ i (hi : i < ks.length), (countKinds resets c ks).2[i]? =
      some (number resets (evs ++ ks.take (i + 1)) ks[i]) := by
  induction ks generalizing c evs with
  | nil => simp [countKinds]; exact h
  | cons e ks ih =>
    have hb := bump_number resets c evs h e
    obtain ⟨i1, i2, i3⟩ := ih (bump resets c e) (evs ++ [e]) hb
    have hck : countKinds resets c (e :: ks) =
        ((countKinds resets (bump resets c e) ks).1, bump resets c e e :: (countKinds resets (bump resets c e) ks).2) := by
      simp only [countKinds, bump]
      cases resets.get? e <;> rfl
    rw [hck]
    refine ⟨by simpa using i1, by simp [i2], ?_⟩
    intro i hi
    cases i with
    | zero => simp [hb]
    | succ i =>
      have := i3 i (by simpa using hi)
      simpa using this

theorem setOrders_length (resets : Dict Str (List Str)) (c : Counter) (ls : List Label) :
    (setOrders resets c ls).length = ls.length := by
  have := congrArg List.length (setOrders_given resets c ls)
  simpa using this

theorem setOrders_spec (resets : Dict Str (List Str)) (ls : List Label) (c : Counter) (before : List Label)
    (h : ∀ k, c k = number resets (kinds before) k) (pre : List Label) (l : Label) (post : List Label)
    (hls : ls = pre ++ l :: post) :
    ∃ l', (setOrders resets c ls)[pre.length]? = some l' ∧
      match l.kind with
      | none => l'.order = l.order
      | some ks => ∃ ns, l'.order = some ns ∧ ns.length = ks.length ∧
          ∀ i (hi : i < ks.length), ns[i]? =
            some (number resets (kinds (before ++ pre) ++ ks.take (i + 1)) ks[i]) := by
  induction pre generalizing ls c before with
  | nil =>
    subst hls
    simp only [List.nil_append, setOrders, List.append_nil]
    cases hk : l.kind with
    | none => exact ⟨l, by simp, rfl⟩
    | some ks =>
      obtain ⟨_, h2, h3⟩ := countKinds_number resets ks c (kinds before) h
      exact ⟨{ l with order := some (countKinds resets c ks).2 }, by simp [hk], _, rfl, h2, h3⟩
  | cons x pre ih =>
    subst hls
    simp only [List.cons_append, setOrders]
    cases hk : x.kind with
    | none =>
      have := ih (pre ++ l :: post) c (before ++ [x]) (by
        intro k
        rw [h k]
        simp [kinds, hk]) rfl
      simpa using this
    | some ks =>
      obtain ⟨h1, _, _⟩ := countKinds_number resets ks c (kinds before) h
      have := ih (pre ++ l :: post) (countKinds resets c ks).1 (before ++ [x]) (by
        intro k
        rw [h1 k]
        simp [kinds, hk]) rfl
      simpa using this

/-! ### Headings -/

theorem rankOf_iff (kind : Option (List Str)) (r : Rank) :
    rankOf kind = some r ↔ ∃ ks, kind = some (ks ++ [name r]) := by
  have names : ∀ q : Rank, rankOf (some [name q]) = some q := by intro q; cases q <;> decide
  constructor
  · intro h
    unfold rankOf at h
    cases hb : kind.bind List.getLast? with
    | none => rw [hb] at h; simp at h
    | some k =>
      rw [hb] at h
      simp only [Option.bind_eq_some_iff] at hb
      obtain ⟨l, rfl, hl⟩ := hb
      rw [List.getLast?_eq_some_iff] at hl
      obtain ⟨ys, rfl⟩ := hl
      refine ⟨ys, ?_⟩
      simp only at h
      repeat' (split at h)
      all_goals first | (simp at h; done) | skip
      all_goals (simp at h; subst h; rename_i hk; first | (rw [hk]; rfl) | skip)
  · rintro ⟨ks, rfl⟩
    rw [← names r]
    simp only [rankOf, Option.bind_some, List.getLast?_append, List.getLast?_singleton, Option.some_or]

theorem isHeading_iff (l : Label) (r : Rank) : IsHeading l r ↔ l.content = true ∧ rankOf l.kind = some r := by
  rw [rankOf_iff]; rfl

theorem encloses_snoc (pre : List Label) (l : Label) (r : Rank) (u : Nat) :
    Encloses (pre ++ [l]) r u ↔ (l.uid = u ∧ IsHeading l r) ∨
      (Encloses pre r u ∧ ∀ q, IsHeading l q → level r < level q) := by
  constructor
  · rintro ⟨a, h, b, e, h1, h2, h3⟩
    rcases List.eq_nil_or_concat b with rfl | ⟨b', x, rfl⟩
    · have := List.append_inj' e rfl
      simp at this
      obtain ⟨rfl, rfl⟩ := this
      exact .inl ⟨h1, h2⟩
    · have e' : pre ++ [l] = (a ++ h :: b') ++ [x] := by simpa using e
      have := List.append_inj' e' rfl
      simp at this
      obtain ⟨rfl, rfl⟩ := this
      right
      exact ⟨⟨a, h, b', rfl, h1, h2, fun y hy => h3 y (by simp [hy])⟩, h3 l (by simp)⟩
  · rintro (⟨h1, h2⟩ | ⟨⟨a, h, b, rfl, h1, h2, h3⟩, h4⟩)
    · exact ⟨pre, l, [], rfl, h1, h2, by simp⟩
    · refine ⟨a, h, b ++ [l], by simp, h1, h2, ?_⟩
      intro x hx
      simp at hx
      rcases hx with hx | rfl
      · exact h3 x hx
      · exact h4

theorem enter_encloses (cur : Links) (pre : List Label) (l : Label) (hl : l.content = true)
    (h : ∀ r u, cur r = some u ↔ Encloses pre r u) (r : Rank) (u : Nat) :
    enter cur l r = some u ↔ Encloses (pre ++ [l]) r u := by
  rw [encloses_snoc]
  simp only [isHeading_iff, hl, true_and]
  cases hr : rankOf l.kind with
  | none => simp [enter, hr, h]
  | some q => cases q <;> cases r <;> simp [enter, hr, h, level]

theorem skip_encloses (cur : Links) (pre : List Label) (l : Label) (hl : l.content = false)
    (h : ∀ r u, cur r = some u ↔ Encloses pre r u) (r : Rank) (u : Nat) :
    cur r = some u ↔ Encloses (pre ++ [l]) r u := by
  rw [encloses_snoc]
  simp [isHeading_iff, hl, h]

theorem setLinks_spec (ls : List Label) (cur : Links) (before : List Label)
    (h : ∀ r u, cur r = some u ↔ Encloses before r u) (pre : List Label) (l : Label) (post : List Label)
    (hls : ls = pre ++ l :: post) :
    ∃ l', (setLinks cur ls)[pre.length]? = some l' ∧
      if l.content then
        ∀ r, (∀ u, Encloses (before ++ pre ++ [l]) r u → l'.links r = some u) ∧
          ((∀ u, ¬ Encloses (before ++ pre ++ [l]) r u) → l'.links r = l.links r)
      else l'.links = l.links := by
  induction pre generalizing ls cur before with
  | nil =>
    subst hls
    simp only [List.nil_append, setLinks, List.append_nil]
    cases hc : l.content with
    | false => exact ⟨l, by simp, by simp⟩
    | true =>
      refine ⟨{ l with links := assign l.links (enter cur l) }, by simp [hc], ?_⟩
      simp only [if_true]
      intro r
      have := enter_encloses cur before l hc h r
      constructor
      · intro u hu
        simp [assign, (this u).2 hu]
      · intro hu
        cases he : enter cur l r with
        | none => simp [assign, he]
        | some u => exact absurd ((this u).1 he) (hu u)
  | cons x pre ih =>
    subst hls
    simp only [List.cons_append, setLinks]
    cases hc : x.content with
    | false =>
      have := ih (pre ++ l :: post) cur (before ++ [x]) (skip_encloses cur before x hc h) rfl
      simpa using this
    | true =>
      have := ih (pre ++ l :: post) (enter cur x) (before ++ [x]) (enter_encloses cur before x hc h) rfl
      simpa using this

end Verif.Labels
