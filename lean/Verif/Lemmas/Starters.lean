import Verif.Spec.Starters
import Verif.Lemmas.Dict
import Verif.Lemmas.Paths
import Verif.Lemmas.LabelText

/-!
# Lemmas about new projects
-/

namespace Verif.Starters

open Verif

theorem isFile_iff (d : Disk) (p : Loc) : isFile d p = true ↔ ∃ s, d.get? p = some (.file s) := by
  unfold isFile
  split
  · rename_i s h; exact ⟨fun _ => ⟨s, h⟩, fun _ => rfl⟩
  · rename_i h
    refine ⟨fun h' => (Bool.noConfusion h'), fun ⟨s, hs⟩ => absurd hs (h s)⟩

theorem isDir_false (d : Disk) (p : Loc) (h0 : p ≠ []) (h : d.get? p ≠ some .dir) : isDir d p = false := by
  simp [isDir, h0, h]

theorem below_some (root p rel : Loc) : below root p = some rel ↔ p = root ++ rel ∧ rel ≠ [] := by
  unfold below
  constructor
  · intro h
    by_cases hc : root.isPrefixOf p = true ∧ root ≠ p
    · rw [if_pos hc] at h
      cases h
      obtain ⟨t, ht⟩ := List.isPrefixOf_iff_prefix.mp hc.1
      subst ht
      rw [List.drop_left]
      exact ⟨rfl, fun h0 => hc.2 (by rw [h0, List.append_nil])⟩
    · rw [if_neg hc] at h; cases h
  · rintro ⟨rfl, h⟩
    have h1 : root ≠ root ++ rel := fun h0 => h (by simpa using h0)
    rw [if_pos ⟨List.isPrefixOf_iff_prefix.mpr ⟨rel, rfl⟩, h1⟩, List.drop_left]

theorem mem_glob (d : Disk) (root rel : Loc) : rel ∈ glob d root ↔ rel ≠ [] ∧ d.get? (root ++ rel) ≠ none := by
  unfold glob
  rw [List.mem_filterMap]
  constructor
  · rintro ⟨p, hp, hb⟩
    obtain ⟨rfl, h⟩ := (below_some _ _ _).mp hb
    exact ⟨h, fun h0 => (Dict.get?_eq_none_iff _ _).mp h0 hp⟩
  · rintro ⟨h, hp⟩
    refine ⟨root ++ rel, ?_, (below_some _ _ _).mpr ⟨rfl, h⟩⟩
    exact Classical.not_not.mp fun hn => hp ((Dict.get?_eq_none_iff _ _).mpr hn)

theorem filterMap_nodup {α β : Type} (f : α → Option β) (hf : ∀ a b c, f a = some c → f b = some c → a = b) (l : List α) (h : l.Nodup) :
    (l.filterMap f).Nodup := by
  induction l with
  | nil => exact List.nodup_nil
  | cons a l ih =>
    rw [List.nodup_cons] at h
    rw [List.filterMap_cons]
    split
    · exact ih h.2
    · rename_i c hc
      rw [List.nodup_cons]
      refine ⟨fun hm => ?_, ih h.2⟩
      obtain ⟨b, hb, hbc⟩ := List.mem_filterMap.mp hm
      exact h.1 (hf a b c hc hbc ▸ hb)

theorem glob_nodup (d : Disk) (root : Loc) (h : d.keys.Nodup) : (glob d root).Nodup := by
  refine filterMap_nodup _ ?_ _ h
  intro a b c ha hb
  rw [((below_some _ _ _).mp ha).1, ((below_some _ _ _).mp hb).1]

theorem mem_starterFiles (d : Disk) (st : Starter) (rel src : Loc) :
    (rel, src) ∈ starterFiles d st ↔ src = st.path.dropLast ++ rel ∧ ∃ s, Supplies d st.path.dropLast rel s := by
  unfold starterFiles
  simp only [List.mem_map, List.mem_filter, decide_eq_true_eq, Prod.mk.injEq]
  constructor
  · rintro ⟨r, ⟨hg, hn, hf⟩, rfl, rfl⟩
    obtain ⟨s, hs⟩ := (isFile_iff _ _).mp hf
    exact ⟨rfl, s, ((mem_glob _ _ _).mp hg).1, hs, hn⟩
  · rintro ⟨rfl, s, h0, hs, hn⟩
    refine ⟨rel, ⟨(mem_glob _ _ _).mpr ⟨h0, ?_⟩, hn, (isFile_iff _ _).mpr ⟨s, hs⟩⟩, rfl, rfl⟩
    rw [hs]; simp

theorem starterFiles_nodup (d : Disk) (st : Starter) (h : d.keys.Nodup) : ((starterFiles d st).map Prod.fst).Nodup := by
  unfold starterFiles
  simp only [List.map_map]
  have : (Prod.fst ∘ fun rel : Loc => (rel, st.path.dropLast ++ rel)) = id := rfl
  rw [this, List.map_id]
  exact (glob_nodup d _ h).filter _

theorem sound_prefix (d : Disk) (hs : Sound d) (p : Loc) (s : Str) (hp : d.get? p = some (.file s)) :
    ∀ t : List Str, t ≠ [] → d.get? (p ++ t) = none := by
  have h0 : p ≠ [] := fun h => by rw [h, hs.top] at hp; cases hp
  intro t
  suffices h : ∀ n (t : List Str), t.length = n → t ≠ [] → d.get? (p ++ t) = none from h _ t rfl
  intro n
  induction n with
  | zero => intro t ht h; exact absurd (List.length_eq_zero_iff.mp ht) h
  | succ n ih =>
    intro t ht hne
    refine Classical.not_not.mp fun hn => ?_
    have e : t = t.dropLast ++ [t.getLast hne] := (List.dropLast_concat_getLast hne).symm
    rw [e, ← List.append_assoc] at hn
    have hd := hs.parents (p ++ t.dropLast) (t.getLast hne) (by simp [h0]) hn
    by_cases h1 : t.dropLast = []
    · rw [h1, List.append_nil, hp] at hd; cases hd
    · have := ih t.dropLast (by rw [List.length_dropLast]; omega) h1
      rw [this] at hd; cases hd

theorem mkdirs_ok (rest : List Str) : ∀ (d : Disk) (at' : Loc) (d' : Disk), mkdirs d at' rest = .ok d' →
    (∀ q, q ≠ [] → q <+: rest → d'.get? (at' ++ q) = some .dir ∧ (∀ t, d.get? (at' ++ q) ≠ some (.file t))) ∧
    ∀ p, (∀ q, q ≠ [] → q <+: rest → p ≠ at' ++ q) → d'.get? p = d.get? p := by
  induction rest with
  | nil =>
    intro d at' d' h
    cases h
    exact ⟨fun q h0 hq => absurd (List.prefix_nil.mp hq) h0, fun p _ => rfl⟩
  | cons c rest ih =>
    intro d at' d' h
    rw [mkdirs] at h
    have app : ∀ q : List Str, at' ++ [c] ++ q = at' ++ c :: q := fun q => by simp
    split at h
    · rename_i hc
      obtain ⟨h1, h2⟩ := ih d _ d' h
      refine ⟨fun q h0 hq => ?_, fun p hp => h2 p fun q h0 hq => ?_⟩
      · cases q with
        | nil => exact absurd rfl h0
        | cons x q =>
          obtain ⟨rfl, hq'⟩ := List.cons_prefix_cons.mp hq
          by_cases hq0 : q = []
          · subst hq0
            refine ⟨?_, fun t => by rw [hc]; intro h; cases h⟩
            rw [h2 _ fun q h0 _ he => h0 ?_, hc]
            have he' : at' ++ [x] ++ [] = at' ++ [x] ++ q := by rw [List.append_nil]; exact he
            exact (List.append_cancel_left he').symm
          · rw [← app]; exact h1 q hq0 hq'
      · rw [app]; exact hp (c :: q) (by simp) (List.cons_prefix_cons.mpr ⟨rfl, hq⟩)
    · cases h
    · rename_i hc
      obtain ⟨h1, h2⟩ := ih _ _ d' h
      refine ⟨fun q h0 hq => ?_, fun p hp => ?_⟩
      · cases q with
        | nil => exact absurd rfl h0
        | cons x q =>
          obtain ⟨rfl, hq'⟩ := List.cons_prefix_cons.mp hq
          by_cases hq0 : q = []
          · subst hq0
            refine ⟨?_, fun t => by rw [hc]; intro h; cases h⟩
            rw [h2 _ fun q h0 _ he => h0 ?_, Dict.get?_set_self]
            have he' : at' ++ [x] ++ [] = at' ++ [x] ++ q := by rw [List.append_nil]; exact he
            exact (List.append_cancel_left he').symm
          · rw [← app]
            refine ⟨(h1 q hq0 hq').1, fun t ht => (h1 q hq0 hq').2 t ?_⟩
            rw [Dict.get?_set]
            split
            · rename_i e; rw [← e] at ht; rw [hc] at ht; cases ht
            · exact ht
      · rw [h2 p fun q h0 hq => by rw [app]; exact hp (c :: q) (by simp) (List.cons_prefix_cons.mpr ⟨rfl, hq⟩), Dict.get?_set, if_neg]
        exact fun e => hp [c] (by simp) (List.cons_prefix_cons.mpr ⟨rfl, List.nil_prefix⟩) e.symm

theorem mkdirs_run (rest : List Str) : ∀ (d : Disk) (at' : Loc), (∀ q, q ≠ [] → q <+: rest → ∀ t, d.get? (at' ++ q) ≠ some (.file t)) →
    ∃ d', mkdirs d at' rest = .ok d' := by
  induction rest with
  | nil => intro d at' _; exact ⟨d, rfl⟩
  | cons c rest ih =>
    intro d at' h
    have app : ∀ q : List Str, at' ++ [c] ++ q = at' ++ c :: q := fun q => by simp
    rw [mkdirs]
    split
    · exact ih d _ fun q h0 hq t => by rw [app]; exact h (c :: q) (by simp) (List.cons_prefix_cons.mpr ⟨rfl, hq⟩) t
    · rename_i s hc
      exact absurd hc (h [c] (by simp) (List.cons_prefix_cons.mpr ⟨rfl, List.nil_prefix⟩) s)
    · refine ih _ _ fun q h0 hq t => ?_
      rw [app, Dict.get?_set, if_neg]
      · exact h (c :: q) (by simp) (List.cons_prefix_cons.mpr ⟨rfl, hq⟩) t
      · intro e
        have := List.append_cancel_left e
        cases this
        exact h0 rfl

/-- What holds of the disk `e` after the files `D` have been copied. -/
structure Copied (d e : Disk) (root out : Loc) (D : List Loc) : Prop where
  files : ∀ rel ∈ D, ∀ s, Supplies d root rel s → e.get? (out ++ rel) = some (.file s)
  rest : ∀ p, (∀ rel ∈ D, p ≠ out ++ rel) →
    e.get? p = d.get? p ∨ (d.get? p = none ∧ e.get? p = some .dir ∧ ∃ rel ∈ D, p <+: out ++ rel ∧ p ≠ out ++ rel)

theorem dropLast_prefix_ne {α : Type} (l q : List α) (h : l ≠ []) (hq : q <+: l.dropLast) : q <+: l ∧ q ≠ l := by
  refine ⟨hq.trans (List.dropLast_prefix l), fun e => ?_⟩
  have h1 := hq.length_le
  rw [e, List.length_dropLast] at h1
  have : 0 < l.length := List.length_pos_iff.mpr h
  omega

theorem prefix_dropLast {α : Type} (l q : List α) (hq : q <+: l) (hne : q ≠ l) : q <+: l.dropLast := by
  obtain ⟨t, rfl⟩ := hq
  have ht : t ≠ [] := fun h => hne (by rw [h, List.append_nil])
  rw [List.dropLast_append_of_ne_nil ht]
  exact List.prefix_append _ _

theorem prefix_append_cases {α : Type} (q a b : List α) (h : q <+: a ++ b) : q <+: a ∨ ∃ c, q = a ++ c ∧ c <+: b := by
  rcases Nat.le_total q.length a.length with h1 | h1
  · exact Or.inl (List.prefix_of_prefix_length_le h (List.prefix_append a b) h1)
  · obtain ⟨c, rfl⟩ := List.prefix_of_prefix_length_le (List.prefix_append a b) h h1
    exact Or.inr ⟨c, rfl, (List.prefix_append_right_inj a).mp h⟩

theorem not_prefix_supplies (d : Disk) (hs : Sound d) (root rel rel' : Loc) (s s' : Str) (h : Supplies d root rel s)
    (h' : Supplies d root rel' s') (hp : rel' <+: rel) : rel' = rel := by
  obtain ⟨t, rfl⟩ := hp
  by_cases ht : t = []
  · rw [ht, List.append_nil]
  · have := sound_prefix d hs _ s' h'.2.1 t ht
    rw [List.append_assoc, h.2.1] at this
    cases this

theorem copyAll_run (d : Disk) (hs : Sound d) (root out : Loc) (hr : Room d root out) :
    ∀ (L : List (Loc × Loc)) (e : Disk) (D : List Loc) (done : List (Loc × Loc)),
    (∀ f ∈ L, f.2 = root ++ f.1 ∧ ∃ s, Supplies d root f.1 s) → (∀ rel ∈ D, ∃ s, Supplies d root rel s) →
    (L.map Prod.fst).Nodup → (∀ rel ∈ D, rel ∉ L.map Prod.fst) → Copied d e root out D →
    ∃ e', copyAll e out done L = ⟨e', done ++ L.map (fun f => (f.1, out ++ f.1)), none⟩ ∧ Copied d e' root out (D ++ L.map Prod.fst) := by
  intro L
  induction L with
  | nil =>
    intro e D done _ _ _ _ hc
    exact ⟨e, by simp [copyAll], by simpa using hc⟩
  | cons f L ih =>
    intro e D done hL hD hn hdis hc
    obtain ⟨rel, src⟩ := f
    obtain ⟨hsrc0, s, hsup⟩ := hL (rel, src) (by simp)
    simp only at hsup hsrc0
    subst hsrc0
    have hne : out ++ rel ≠ [] := by simp [hsup.1]
    have hrelD : rel ∉ D := fun h => hdis rel h (by simp)
    have key : ∀ q, q <+: out ++ rel → q ≠ out ++ rel → ∀ t, e.get? q ≠ some (.file t) := by
      intro q hq hqe t ht
      have hq' : ∀ rel' ∈ D, q ≠ out ++ rel' := by
        rintro rel' h' rfl
        obtain ⟨s', hs'⟩ := hD rel' h'
        have hp := (List.prefix_append_right_inj out).mp hq
        have := not_prefix_supplies d hs root rel rel' s s' hsup hs' hp
        exact hrelD (this ▸ h')
      rcases hc.rest q hq' with h1 | ⟨_, h1, _⟩
      · rw [h1] at ht
        rcases prefix_append_cases _ _ _ hq with h2 | ⟨q2, rfl, h2⟩
        · exact hr.above q h2 t ht
        · exact hr.dirs rel s hsup q2 h2 (fun h => hqe (by rw [h])) t ht
      · rw [h1] at ht; cases ht
    obtain ⟨e1, he1⟩ := mkdirs_run (out ++ rel).dropLast e [] (fun q _ hq t => by
      rw [List.nil_append]
      have := dropLast_prefix_ne _ _ hne hq
      exact key q this.1 this.2 t)
    obtain ⟨hm1, hm2⟩ := mkdirs_ok _ _ _ _ he1
    have hdest : e1.get? (out ++ rel) = e.get? (out ++ rel) := hm2 _ fun q _ hq he => by
      rw [List.nil_append] at he
      exact (dropLast_prefix_ne _ _ hne hq).2 he.symm
    have hdest' : e.get? (out ++ rel) ≠ some .dir := by
      intro h
      rcases hc.rest (out ++ rel) (fun rel' h' he => hrelD (List.append_cancel_left he ▸ h')) with h1 | ⟨_, _, rel', h', hp, hpe⟩
      · rw [h1] at h; exact hr.files rel s hsup h
      · obtain ⟨s', hs'⟩ := hD rel' h'
        have hp := (List.prefix_append_right_inj out).mp hp
        have := not_prefix_supplies d hs root rel' rel s' s hs' hsup hp
        exact hpe (by rw [this])
    have hsrc : e.get? (root ++ rel) = some (.file s) := by
      rcases hc.rest (root ++ rel) (fun rel' h' he => by
        obtain ⟨s', hs'⟩ := hD rel' h'
        exact hr.apart rel' s' rel s hs' hsup he.symm) with h1 | ⟨h1, _⟩
      · rw [h1, hsup.2.1]
      · rw [hsup.2.1] at h1; cases h1
    have hsrc1 : e1.get? (root ++ rel) = some (.file s) := by
      rw [hm2 _ fun q h0 hq he => ?_, hsrc]
      rw [List.nil_append] at he
      have := dropLast_prefix_ne _ _ hne hq
      rw [← he] at this
      exact key _ this.1 this.2 s hsrc
    have hcopy : copy2 e1 (root ++ rel) (out ++ rel) = .ok (e1.set (out ++ rel) (.file s)) := by
      have hnd : isDir e1 (out ++ rel) = false := isDir_false _ _ hne (by rw [hdest]; exact hdest')
      unfold copy2
      simp only [hnd, Bool.false_eq_true, if_false]
      rw [if_neg (fun h => hr.apart rel s rel s hsup hsup h.symm), hsrc1]
    have hc' : Copied d (e1.set (out ++ rel) (.file s)) root out (D ++ [rel]) := by
      constructor
      · intro rel' h' s' hs'
        rw [Dict.get?_set]
        by_cases he : rel = rel'
        · subst he
          rw [if_pos rfl]
          have := hs'.2.1
          rw [hsup.2.1] at this
          exact this
        · rw [if_neg (fun h => he (List.append_cancel_left h))]
          rcases List.mem_append.mp h' with h1 | h1
          · rw [hm2 _ fun q _ hq hq' => ?_]
            · exact hc.files rel' h1 s' hs'
            · rw [List.nil_append] at hq'
              have := dropLast_prefix_ne _ _ hne hq
              rw [← hq'] at this
              have hp := (List.prefix_append_right_inj out).mp this.1
              exact he (not_prefix_supplies d hs root rel rel' s s' hsup hs' hp).symm
          · exact absurd (List.mem_singleton.mp h1).symm he
      · intro p hp
        rw [Dict.get?_set, if_neg (fun h => hp rel (by simp) h.symm)]
        have hp' : ∀ rel' ∈ D, p ≠ out ++ rel' := fun rel' h' => hp rel' (by simp [h'])
        by_cases hpre : p ≠ [] ∧ p <+: (out ++ rel).dropLast
        · have h1 := (hm1 p hpre.1 hpre.2).1
          rw [List.nil_append] at h1
          have h2 := dropLast_prefix_ne _ _ hne hpre.2
          rcases hc.rest p hp' with h3 | ⟨h3, _, rel', h', h4⟩
          · cases hdp : d.get? p with
            | none => exact Or.inr ⟨rfl, h1, rel, by simp, h2⟩
            | some n =>
              cases n with
              | dir => exact Or.inl h1
              | file t => exact absurd (h3.trans hdp) (key p h2.1 h2.2 t)
          · exact Or.inr ⟨h3, h1, rel, by simp, h2⟩
        · rw [hm2 p fun q h0 hq he => hpre (by rw [List.nil_append] at he; subst he; exact ⟨h0, hq⟩)]
          rcases hc.rest p hp' with h3 | ⟨h3, h4, rel', h', h5⟩
          · exact Or.inl h3
          · exact Or.inr ⟨h3, h4, rel', by simp [h'], h5⟩
    rw [copyAll]
    simp only [he1, hcopy]
    rw [List.map_cons, List.nodup_cons] at hn
    obtain ⟨e', h1, h2⟩ := ih (e1.set (out ++ rel) (.file s)) (D ++ [rel]) (done ++ [(rel, out ++ rel)]) (fun f hf => hL f (by simp [hf]))
      (fun r hr' => by
        rcases List.mem_append.mp hr' with h | h
        · exact hD r h
        · rw [List.mem_singleton.mp h]; exact ⟨s, hsup⟩)
      hn.2
      (fun r hr' => by
        rcases List.mem_append.mp hr' with h | h
        · exact fun hm => hdis r h (by simp [List.mem_map.mp hm])
        · rw [List.mem_singleton.mp h]; exact hn.1) hc'
    refine ⟨e', ?_, ?_⟩
    · rw [h1]; simp
    · simpa using h2

theorem copy2_cases (d : Disk) (src dest : Loc) (d' : Disk) (h : copy2 d src dest = .ok d') :
    ∃ s, d' = d.set dest (.file s) ∨ d' = d.set (dest ++ [src.getLastD []]) (.file s) := by
  have key : ∀ dest' : Loc, (if src = dest' then Except.error Err.sameFile
      else match d.get? src with
      | some (.file s) => if isDir d dest' then .error .isDir else .ok (d.set dest' (.file s))
      | some .dir => .error .isDir
      | none => .error .notFound) = Except.ok d' → ∃ s, d' = d.set dest' (.file s) := by
    intro dest' h
    by_cases h1 : src = dest'
    · rw [if_pos h1] at h; cases h
    · rw [if_neg h1] at h
      split at h
      · rename_i s _
        by_cases h2 : isDir d dest' = true
        · rw [if_pos h2] at h; cases h
        · rw [if_neg h2] at h; cases h; exact ⟨s, rfl⟩
      · cases h
      · cases h
  obtain ⟨s, hs⟩ := key _ h
  refine ⟨s, ?_⟩
  by_cases hd : isDir d dest = true
  · rw [if_pos hd] at hs; exact .inr hs
  · rw [if_neg hd] at hs; exact .inl hs

theorem copyAll_safe (d : Disk) (out : Loc) : ∀ (L : List (Loc × Loc)) (e : Disk) (done : List (Loc × Loc)),
    (∀ f ∈ L, f.2.getLastD [] = f.1.getLastD []) →
    ∀ p, (copyAll e out done L).disk.get? p = e.get? p ∨ (e.get? p = none ∧ (p <+: out ∨ out <+: p)) ∨
      ∃ f ∈ L, p = out ++ f.1 ∨ p = out ++ f.1 ++ [f.1.getLastD []] := by
  intro L
  induction L with
  | nil => intro e done _ p; exact .inl rfl
  | cons f L ih =>
    intro e done hL p
    obtain ⟨rel, src⟩ := f
    have hlast : src.getLastD [] = rel.getLastD [] := hL (rel, src) (by simp)
    rw [copyAll]
    split
    · exact .inl rfl
    · rename_i e1 h1
      obtain ⟨hm1, hm2⟩ := mkdirs_ok _ _ _ _ h1
      have hmk : e1.get? p = e.get? p ∨ (e.get? p = none ∧ (p <+: out ∨ out <+: p)) := by
        by_cases hp : p ≠ [] ∧ p <+: (out ++ rel).dropLast
        · have h2 := hm1 p hp.1 hp.2
          rw [List.nil_append] at h2
          cases he : e.get? p with
          | none =>
            refine .inr ⟨rfl, ?_⟩
            rcases prefix_append_cases _ _ _ (hp.2.trans (List.dropLast_prefix _)) with h3 | ⟨c, rfl, _⟩
            · exact .inl h3
            · exact .inr (List.prefix_append _ _)
          | some n =>
            cases n with
            | dir => exact .inl h2.1
            | file t => exact absurd he (h2.2 t)
        · exact .inl (hm2 p fun q h0 hq he => hp (by rw [List.nil_append] at he; subst he; exact ⟨h0, hq⟩))
      split
      · rcases hmk with h | h
        · exact .inl h
        · exact .inr (.inl h)
      · rename_i e2 h2
        obtain ⟨s, hs⟩ := copy2_cases _ _ _ _ h2
        have hset : e2.get? p = e1.get? p ∨ p = out ++ rel ∨ p = out ++ rel ++ [rel.getLastD []] := by
          rcases hs with rfl | rfl
          · rw [Dict.get?_set]
            by_cases hp : out ++ rel = p
            · exact .inr (.inl hp.symm)
            · rw [if_neg hp]; exact .inl rfl
          · rw [Dict.get?_set, hlast]
            by_cases hp : out ++ rel ++ [rel.getLastD []] = p
            · exact .inr (.inr hp.symm)
            · rw [if_neg hp]; exact .inl rfl
        rcases ih e2 (done ++ [(rel, out ++ rel)]) (fun f hf => hL f (by simp [hf])) p with h3 | ⟨h3, h4⟩ | ⟨f, hf, h4⟩
        · rcases hset with h5 | h5
          · rcases hmk with h6 | h6
            · exact .inl (h3.trans (h5.trans h6))
            · exact .inr (.inl h6)
          · exact .inr (.inr ⟨(rel, src), by simp, h5⟩)
        · rcases hset with h5 | h5
          · rcases hmk with h6 | h6
            · exact .inr (.inl ⟨by rw [← h6, ← h5]; exact h3, h4⟩)
            · exact .inr (.inl h6)
          · exact .inr (.inr ⟨(rel, src), by simp, h5⟩)
        · exact .inr (.inr ⟨f, by simp [hf], h4⟩)

theorem keyLe_iff (a b : Loc) : keyLe a b = true ↔ Before a b := by
  unfold keyLe Before
  simp

theorem before_trans (a b c : Loc) (h : Before a b) (h' : Before b c) : Before a c := by
  rcases h with h | ⟨h, h1⟩ <;> rcases h' with h' | ⟨h', h1'⟩
  · exact .inl (by omega)
  · exact .inl (by omega)
  · exact .inl (by omega)
  · exact .inr ⟨by omega, List.le_trans h1 h1'⟩

theorem before_total (a b : Loc) : Before a b ∨ Before b a := by
  unfold Before
  rcases Nat.lt_trichotomy a.length b.length with h | h | h
  · exact .inl (.inl h)
  · rcases List.le_total a b with h1 | h1
    · exact .inl (.inr ⟨h, h1⟩)
    · exact .inr (.inr ⟨h.symm, h1⟩)
  · exact .inr (.inl h)

theorem insertWith_perm {α : Type} (le : α → α → Bool) (a : α) (l : List α) : (insertWith le a l).Perm (a :: l) := by
  induction l with
  | nil => exact List.Perm.refl _
  | cons b l ih =>
    rw [insertWith]
    split
    · exact List.Perm.refl _
    · exact (ih.cons b).trans (List.Perm.swap a b l)

theorem sortWith_perm {α : Type} (le : α → α → Bool) (l : List α) : (sortWith le l).Perm l := by
  induction l with
  | nil => exact List.Perm.refl _
  | cons a l ih => exact (insertWith_perm le a _).trans (ih.cons a)

theorem sortWith_pairwise {α : Type} (le : α → α → Bool) (ht : ∀ a b c, le a b = true → le b c = true → le a c = true)
    (hto : ∀ a b, (le a b || le b a) = true) (l : List α) : (sortWith le l).Pairwise fun a b => le a b = true := by
  induction l with
  | nil => exact List.Pairwise.nil
  | cons a l ih =>
    rw [sortWith]
    generalize sortWith le l = m at ih
    induction m with
    | nil => exact List.pairwise_singleton _ _
    | cons b m ih2 =>
      rw [insertWith]
      rw [List.pairwise_cons] at ih
      by_cases h : le a b = true
      · rw [if_pos h]
        refine List.pairwise_cons.mpr ⟨fun c hc => ?_, List.pairwise_cons.mpr ih⟩
        rcases List.mem_cons.mp hc with rfl | hc
        · exact h
        · exact ht _ _ _ h (ih.1 c hc)
      · rw [if_neg h]
        refine List.pairwise_cons.mpr ⟨fun c hc => ?_, ih2 ih.2⟩
        rcases List.mem_cons.mp ((insertWith_perm le a m).mem_iff.mp hc) with rfl | hc
        · have := hto c b
          rw [Bool.or_eq_true] at this
          exact this.resolve_left h
        · exact ih.1 c hc

theorem sortedFiles (l : List (Loc × Loc)) : (sortWith (fun a b => keyLe a.1 b.1) l).Pairwise fun a b => Before a.1 b.1 := by
  have h := sortWith_pairwise (fun a b : Loc × Loc => keyLe a.1 b.1)
    (fun a b c h h' => (keyLe_iff _ _).mpr (before_trans _ _ _ ((keyLe_iff _ _).mp h) ((keyLe_iff _ _).mp h')))
    (fun a b => by
      rw [Bool.or_eq_true, keyLe_iff, keyLe_iff]
      exact before_total _ _) l
  exact h.imp fun h => (keyLe_iff _ _).mp h

/-! ### Names of starters -/

theorem filter_none {α : Type} (q : α → Bool) (l : List α) (h : ∀ a ∈ l, q a = true) : l.filter q = l := List.filter_eq_self.mpr h

theorem take_until (x : Str) (a b : Loc) (h : x ∉ a) : (a ++ x :: b).takeWhile (· ≠ x) = a := by
  rw [List.takeWhile_append_of_pos]
  · simp
  · intro y hy
    rw [decide_eq_true_eq]
    exact fun e => h (e ▸ hy)

theorem path_parts (a b : Str) (t n t' n' : Loc) (h : a ∉ t) (h' : a ∉ t') (e : t ++ [a] ++ n ++ [b] = t' ++ [a] ++ n' ++ [b]) :
    t = t' ∧ n = n' := by
  have e' : t ++ a :: (n ++ [b]) = t' ++ a :: (n' ++ [b]) := by simpa using e
  have ht : t = t' := by rw [← take_until a t (n ++ [b]) h, e', take_until a t' _ h']
  subst ht
  refine ⟨rfl, ?_⟩
  have := List.append_cancel_left e'
  rw [List.cons.injEq] at this
  exact List.append_cancel_right this.2

theorem path_mem (a b : Str) (t n : Loc) : a ∈ t ++ [a] ++ n ++ [b] := by simp

theorem path_take (a b : Str) (t n : Loc) (h : a ∉ t) : (t ++ [a] ++ n ++ [b]).takeWhile (· ≠ a) = t := by
  have : t ++ [a] ++ n ++ [b] = t ++ a :: (n ++ [b]) := by simp
  rw [this, take_until a t _ h]

theorem path_filter (a b : Str) (t n : Loc) (ht : a ∉ t ∧ b ∉ t) (hn : a ∉ n ∧ b ∉ n) :
    (t ++ [a] ++ n ++ [b]).filter (fun part => decide (part ≠ a ∧ part ≠ b)) = t ++ n := by
  have hf : ∀ l : Loc, a ∉ l ∧ b ∉ l → l.filter (fun part => decide (part ≠ a ∧ part ≠ b)) = l := by
    intro l ⟨h1, h2⟩
    refine filter_none _ _ fun x hx => ?_
    rw [decide_eq_true_eq]
    exact ⟨fun e => h1 (e ▸ hx), fun e => h2 (e ▸ hx)⟩
  rw [List.filter_append, List.filter_append, List.filter_append, hf t ht, hf n hn]
  simp

theorem path_ne (a b : Str) (t n : Loc) : t ++ [a] ++ n ++ [b] ≠ [] := by simp

theorem describes_name {d : Disk} {templates rel t n : Loc} {text : Str} (h : Describes d templates rel t n text) :
    pathToName rel = ['/'].intercalate (t ++ n) := by
  unfold pathToName
  rw [h.path, LabelText.join_eq_intercalate]
  exact congrArg _ (path_filter starterDir descName t n h.inTemplate h.inName)

theorem describes_template {d : Disk} {templates rel t n : Loc} {text : Str} (h : Describes d templates rel t n text) :
    pathTemplate rel = .ok (['/'].intercalate t) := by
  unfold pathTemplate
  have hm : starterDir ∈ rel := by rw [h.path]; exact path_mem _ _ _ _
  have ht : rel.takeWhile (· ≠ starterDir) = t := by rw [h.path]; exact path_take starterDir descName t n h.inTemplate.1
  rw [if_pos hm, ht, LabelText.join_eq_intercalate]

theorem describes_last {d : Disk} {templates rel t n : Loc} {text : Str} (h : Describes d templates rel t n text) :
    rel.getLast? = some descName := by
  rw [h.path]; exact List.getLast?_concat

theorem template_ne_description : ("template".toList : Str) ≠ "description".toList := by decide

theorem addStarter_ok {parse : Str → Dict Str Str} {strip : Str → Str} {d : Disk} {templates rel t n : Loc} {text : Str}
    (h : Describes d templates rel t n text) (hd : "description".toList ∈ (parse text).keys) (S : Dict Str Starter) :
    ∃ entries, EntriesOf parse strip t text entries ∧
      addStarter parse strip d templates S rel = .ok (S.set (['/'].intercalate (t ++ n)) ⟨entries, templates ++ rel⟩) := by
  have hg : ((parse text).get? "description".toList).isSome = true := (Dict.get?_isSome_iff _ _).mpr hd
  obtain ⟨desc, hdesc⟩ := Option.isSome_iff_exists.mp hg
  refine ⟨((parse text).set "template".toList (['/'].intercalate t)).set "description".toList (strip desc), ?_, ?_⟩
  · intro k
    rw [Dict.get?_set, Dict.get?_set]
    by_cases h1 : k = "description".toList
    · rw [if_pos h1.symm, if_pos h1, h1, hdesc]; rfl
    · rw [if_neg (fun e => h1 e.symm), if_neg h1]
      by_cases h2 : k = "template".toList
      · rw [if_pos h2.symm, if_pos h2]
      · rw [if_neg (fun e => h2 e.symm), if_neg h2]
  · unfold addStarter
    have hr : readText d (templates ++ rel) = .ok text := by unfold readText; rw [h.file]
    simp only [hr, describes_template h, describes_name h, bind, Except.bind]
    rw [Dict.get?_set, if_neg template_ne_description, hdesc]

theorem addStarters_ok {parse : Str → Dict Str Str} {strip : Str → Str} {d : Disk} {templates : Loc}
    (hu : ∀ rel t n text rel' t' n' text', Describes d templates rel t n text → Describes d templates rel' t' n' text' →
      ['/'].intercalate (t ++ n) = ['/'].intercalate (t' ++ n') → rel = rel') :
    ∀ (rels : List Loc) (S : Dict Str Starter),
    (∀ rel ∈ rels, ∃ t n text, Describes d templates rel t n text ∧ "description".toList ∈ (parse text).keys) →
    ∃ S', addStarters parse strip d templates S rels = .ok S' ∧
      (∀ rel ∈ rels, ∀ t n text, Describes d templates rel t n text →
        ∃ st, S'.get? (['/'].intercalate (t ++ n)) = some st ∧ st.path = templates ++ rel ∧ EntriesOf parse strip t text st.entries) ∧
      ∀ c, (∀ rel ∈ rels, ∀ t n text, Describes d templates rel t n text → c ≠ ['/'].intercalate (t ++ n)) → S'.get? c = S.get? c := by
  intro rels
  induction rels with
  | nil => intro S _; exact ⟨S, rfl, by simp, fun c _ => rfl⟩
  | cons rel rels ih =>
    intro S hr
    obtain ⟨t, n, text, h, hd⟩ := hr rel (by simp)
    obtain ⟨entries, he, ha⟩ := addStarter_ok (strip := strip) h hd S
    obtain ⟨S', h1, h2, h3⟩ := ih (S.set (['/'].intercalate (t ++ n)) ⟨entries, templates ++ rel⟩) (fun r hr' => hr r (by simp [hr']))
    refine ⟨S', ?_, ?_, ?_⟩
    · rw [addStarters, ha]; exact h1
    · intro rel' hrel' t' n' text' h'
      by_cases hmem : rel' ∈ rels
      · exact h2 rel' hmem t' n' text' h'
      · rcases List.mem_cons.mp hrel' with rfl | h0
        · have e1 : t' = t ∧ n' = n := by
            have hp := h'.path
            rw [h.path] at hp
            have := path_parts _ _ t n t' n' h.inTemplate.1 h'.inTemplate.1 hp
            exact ⟨this.1.symm, this.2.symm⟩
          obtain ⟨rfl, rfl⟩ := e1
          have e2 : text' = text := by
            have := h'.file
            rw [h.file] at this
            cases this; rfl
          subst e2
          rw [h3 _ fun r hr' t2 n2 text2 hd2 e => hmem (hu _ _ _ _ _ _ _ _ h' hd2 e ▸ hr'), Dict.get?_set_self]
          exact ⟨_, rfl, rfl, he⟩
        · exact absurd h0 hmem
    · intro c hc
      rw [h3 c fun r hr' => hc r (by simp [hr']), Dict.get?_set, if_neg]
      exact fun e => hc rel (by simp) t n text h e.symm

theorem names_unique (d : Disk) (hs : Sound d) (templates : Loc) (hf : Flat d templates) :
    ∀ rel t n text rel' t' n' text', Describes d templates rel t n text → Describes d templates rel' t' n' text' →
      ['/'].intercalate (t ++ n) = ['/'].intercalate (t' ++ n') → rel = rel' := by
  intro rel t n text rel' t' n' text' h h' e
  have nm : ∀ {rel t n text}, Describes d templates rel t n text → ∀ c ∈ t ++ n, Paths.IsName c := by
    intro rel t n text h c hc
    refine hs.names (templates ++ rel) (by rw [h.file]; simp) c ?_
    rw [h.path]
    generalize "starters".toList = a
    generalize "description.yaml".toList = b
    rcases List.mem_append.mp hc with hc | hc <;> simp [hc]
  rw [← LabelText.join_eq_intercalate, ← LabelText.join_eq_intercalate] at e
  have e1 := Paths.split_join_names _ (nm h)
  rw [e, Paths.split_join_names _ (nm h')] at e1
  have ht : t = t' := by
    rcases List.prefix_or_prefix_of_prefix (⟨n, rfl⟩ : t <+: t ++ n) (by rw [← e1]; exact List.prefix_append _ _ : t' <+: t ++ n) with h1 | h1
    · exact hf _ _ _ _ _ _ _ _ h h' h1
    · exact (hf _ _ _ _ _ _ _ _ h' h h1).symm
  subst ht
  have hn := List.append_cancel_left e1
  subst hn
  rw [h.path, h'.path]

theorem generate_ok {parse : Str → Dict Str Str} {strip : Str → Str} {d : Disk} (hs : Sound d) {templates : Loc}
    (ha : AllDescribe parse d templates) (hf : Flat d templates) :
    ∃ S, generateStarters parse strip d templates = .ok S ∧
      (∀ rel t n text, Describes d templates rel t n text →
        ∃ st, S.get? (['/'].intercalate (t ++ n)) = some st ∧ st.path = templates ++ rel ∧ EntriesOf parse strip t text st.entries) ∧
      ∀ c, (∀ rel t n text, Describes d templates rel t n text → c ≠ ['/'].intercalate (t ++ n)) → S.get? c = none := by
  obtain ⟨S, h1, h2, h3⟩ := addStarters_ok (strip := strip) (names_unique d hs templates hf)
    ((glob d templates).filter fun rel => rel.getLast? = some descName) [] (fun rel hr => by
      obtain ⟨hg, hl⟩ := List.mem_filter.mp hr
      exact ha rel ((mem_glob _ _ _).mp hg).2 (of_decide_eq_true hl))
  refine ⟨S, h1, fun rel t n text h => h2 rel ?_ t n text h, fun c hc => ?_⟩
  · refine List.mem_filter.mpr ⟨(mem_glob _ _ _).mpr ⟨?_, ?_⟩, decide_eq_true (describes_last h)⟩
    · rw [h.path]; exact path_ne _ _ _ _
    · rw [h.file]; simp
  · rw [h3 c fun rel _ t n text h => hc rel t n text h]; rfl

theorem addStarters_faulty {parse : Str → Dict Str Str} {strip : Str → Str} {d : Disk} {templates : Loc} (bad : Loc)
    (hb : ∀ S, ∃ e, addStarter parse strip d templates S bad = .error e) :
    ∀ (rels : List Loc) (S : Dict Str Starter), bad ∈ rels → ∃ e, addStarters parse strip d templates S rels = .error e := by
  intro rels
  induction rels with
  | nil => intro S h; simp at h
  | cons rel rels ih =>
    intro S h
    rw [addStarters]
    rcases List.mem_cons.mp h with rfl | h
    · obtain ⟨e, he⟩ := hb S
      exact ⟨e, by rw [he]; rfl⟩
    · cases hx : addStarter parse strip d templates S rel with
      | error e => exact ⟨e, rfl⟩
      | ok S1 => exact ih S1 h

theorem splitlines_first (brk : Char → Bool) (s line : Str) (ls : List Str) (h : Utils.splitlines brk s = line :: ls) : FirstLine brk s line := by
  unfold Utils.splitlines at h
  induction s generalizing line ls with
  | nil => cases h
  | cons c t ih =>
    rw [Utils.splitlinesGo] at h
    simp only [Bool.false_and, Bool.false_eq_true, if_false] at h
    by_cases hc : brk c = true
    · rw [if_pos hc] at h
      cases h
      exact ⟨c :: t, rfl, by simp, fun x hx => by cases hx; exact hc⟩
    · rw [if_neg hc] at h
      split at h
      · rename_i l ls' hl
        cases h
        obtain ⟨r, rfl, h1, h2⟩ := ih l _ hl
        refine ⟨r, rfl, fun x hx => ?_, h2⟩
        rcases List.mem_cons.mp hx with rfl | hx
        · exact Bool.eq_false_iff.mpr hc
        · exact h1 x hx
      · rename_i hl
        cases h
        have ht : t = [] := by
          cases t with
          | nil => rfl
          | cons x t =>
            rw [Utils.splitlinesGo] at hl
            simp only [Bool.false_and, Bool.false_eq_true, if_false] at hl
            split at hl
            · cases hl
            · split at hl <;> cases hl
        subst ht
        exact ⟨[], rfl, fun x hx => by rw [List.mem_singleton.mp hx]; exact Bool.eq_false_iff.mpr hc, fun x hx => by cases hx⟩

end Verif.Starters
