import Verif.Lemmas.BuildAdds
import Verif.Props.Targets
import Verif.Spec.Assembly

/-! # Lemmas about the builders of a project -/

namespace Verif.Build

open Verif Verif.Decider Verif.Paths
open Verif.Targets (Doc Tools EnvOk At buildersOf addTargetBuilders)

namespace Kit

/-! ### Keys and numbers -/

/-- What is needed of the table: a document with a pdf has a tex file. -/
structure Table (K : Kit) : Prop where
  tex : ∀ d ∈ K.docs, ∀ b, (buildersOf K.table d).get? ".pdf".toList = some b → ∃ b', (buildersOf K.table d).get? ".tex".toList = some b'
  has : ∀ d ∈ K.docs, ∀ eb ∈ buildersOf K.table d, (buildersOf K.table d).get? eb.1 = some eb.2

variable {K : Kit}

/-- The document has a builder for this extension. -/
def Has (K : Kit) (d : Doc) (t : Str) : Prop := d ∈ K.docs ∧ ∃ b, (buildersOf K.table d).get? t = some b

/-- Which keys there are. -/
def Valid (K : Kit) : Key → Prop
  | .root => True
  | .target d t => K.Has d t
  | .deps d t | .page d t => t ≠ ".pdf".toList ∧ K.Has d t
  | .copy d t j => t ≠ ".pdf".toList ∧ K.Has d t ∧ j < (K.copies d t).length
  | .image d t j => t ≠ ".pdf".toList ∧ K.Has d t ∧ j < (K.images d t).length
  | .converter d | .final d => K.Has d ".pdf".toList

theorem mem_of_get {bs : Targets.Builders} {t : Str} {b : Targets.Builder} (h : bs.get? t = some b) : (t, b) ∈ bs := Dict.mem_of_get? _ _ _ h

theorem mem_keysOf {d : Doc} {t : Str} {k : Key} : k ∈ K.keysOf d t ↔
    (t = ".pdf".toList ∧ (k = .target d t ∨ k = .converter d ∨ k = .final d)) ∨
    (t ≠ ".pdf".toList ∧ (k = .target d t ∨ k = .deps d t ∨ k = .page d t ∨ (∃ j < (K.copies d t).length, k = .copy d t j) ∨
      ∃ j < (K.images d t).length, k = .image d t j)) := by
  unfold keysOf
  by_cases h : t = ".pdf".toList
  · rw [if_pos h]; simp [h]
  · rw [if_neg h]
    simp only [h, below, imagesOf, List.mem_append, List.mem_cons, List.not_mem_nil, or_false, List.mem_map, List.mem_range, false_and,
      false_or, ne_eq, not_false_eq_true, true_and, eq_comm (b := k), or_assoc]

theorem mem_keys (hT : K.Table) {k : Key} : k ∈ K.keys ↔ K.Valid k := by
  have hmem : k ∈ K.keys ↔ k = .root ∨ ∃ d ∈ K.docs, ∃ t b, (buildersOf K.table d).get? t = some b ∧ k ∈ K.keysOf d t := by
    unfold keys
    rw [List.mem_cons]
    simp only [List.mem_flatMap]
    constructor
    · rintro (h | ⟨d, hd, eb, he, hk⟩)
      · exact .inl h
      · exact .inr ⟨d, hd, eb.1, eb.2, hT.has d hd eb he, hk⟩
    · rintro (h | ⟨d, hd, t, b, hg, hk⟩)
      · exact .inl h
      · exact .inr ⟨d, hd, (t, b), mem_of_get hg, hk⟩
  rw [hmem]
  simp only [mem_keysOf]
  constructor
  · rintro (h | ⟨d, hd, t, b, hg, h⟩)
    · subst h; trivial
    · rcases h with ⟨ht, h | h | h⟩ | ⟨ht, h | h | h | ⟨j, hj, h⟩ | ⟨j, hj, h⟩⟩ <;> subst h
      · exact ⟨hd, b, hg⟩
      · subst ht; exact ⟨hd, b, hg⟩
      · subst ht; exact ⟨hd, b, hg⟩
      · exact ⟨hd, b, hg⟩
      · exact ⟨ht, hd, b, hg⟩
      · exact ⟨ht, hd, b, hg⟩
      · exact ⟨ht, ⟨hd, b, hg⟩, hj⟩
      · exact ⟨ht, ⟨hd, b, hg⟩, hj⟩
  · intro h
    cases k with
    | root => exact .inl rfl
    | target d t =>
      obtain ⟨hd, b, hg⟩ := h
      refine .inr ⟨d, hd, t, b, hg, ?_⟩
      by_cases ht : t = ".pdf".toList
      · exact .inl ⟨ht, .inl rfl⟩
      · exact .inr ⟨ht, .inl rfl⟩
    | deps d t => obtain ⟨ht, hd, b, hg⟩ := h; exact .inr ⟨d, hd, t, b, hg, .inr ⟨ht, .inr (.inl rfl)⟩⟩
    | page d t => obtain ⟨ht, hd, b, hg⟩ := h; exact .inr ⟨d, hd, t, b, hg, .inr ⟨ht, .inr (.inr (.inl rfl))⟩⟩
    | copy d t j =>
      obtain ⟨ht, ⟨hd, b, hg⟩, hj⟩ := h
      exact .inr ⟨d, hd, t, b, hg, .inr ⟨ht, .inr (.inr (.inr (.inl ⟨j, hj, rfl⟩)))⟩⟩
    | image d t j =>
      obtain ⟨ht, ⟨hd, b, hg⟩, hj⟩ := h
      exact .inr ⟨d, hd, t, b, hg, .inr ⟨ht, .inr (.inr (.inr (.inr ⟨j, hj, rfl⟩)))⟩⟩
    | converter d => obtain ⟨hd, b, hg⟩ := h; exact .inr ⟨d, hd, _, b, hg, .inl ⟨rfl, .inr (.inl rfl)⟩⟩
    | final d => obtain ⟨hd, b, hg⟩ := h; exact .inr ⟨d, hd, _, b, hg, .inl ⟨rfl, .inr (.inr rfl)⟩⟩

theorem at_number {k : Key} (h : k ∈ K.keys) : K.keys[K.number k]? = some k := by
  have h1 : K.keys.idxOf k < K.keys.length := List.idxOf_lt_length_iff.2 h
  show K.keys[K.keys.idxOf k]? = some k
  rw [List.getElem?_eq_getElem h1, List.getElem_idxOf]

theorem node_number {k : Key} (h : k ∈ K.keys) : K.project.node (K.number k) = K.nodeOf k := by
  show (K.keys[K.number k]?).bind K.nodeOf = _
  rw [at_number h]; rfl

theorem subs_number {k : Key} (h : k ∈ K.keys) : K.subs (K.number k) = (K.below k).map K.number := by
  unfold subs; rw [at_number h]

theorem adds_number {d : Doc} {t : Str} (h : .deps d t ∈ K.keys) :
    K.adds (K.number (.deps d t)) = some (K.number (.page d t), (K.imagesOf d t).map K.number) := by
  unfold adds; rw [at_number h]

theorem adds_cases {n p : Nat} {l : List Nat} (h : K.adds n = some (p, l)) :
    ∃ d t, K.keys[n]? = some (.deps d t) ∧ p = K.number (.page d t) ∧ l = (K.imagesOf d t).map K.number := by
  unfold adds at h
  split at h
  · rename_i d t hk
    injection h with h
    injection h with h1 h2
    exact ⟨d, t, hk, h1.symm, h2.symm⟩
  · cases h

theorem adds_none {n : Nat} {k : Key} (h : K.keys[n]? = some k) (hk : ∀ d t, k ≠ .deps d t) : K.adds n = none := by
  cases ha : K.adds n with
  | none => rfl
  | some q =>
    obtain ⟨d, t, h1, _⟩ := adds_cases ha
    rw [h] at h1; injection h1 with h1
    exact absurd h1 (hk d t)

theorem mem_of_at {i : Nat} {k : Key} (h : K.keys[i]? = some k) : k ∈ K.keys := List.mem_of_getElem? h

theorem node_at {i : Nat} {nd : Node} (h : K.project.node i = some nd) : ∃ k, K.keys[i]? = some k ∧ K.nodeOf k = some nd := by
  have h : (K.keys[i]?).bind K.nodeOf = some nd := h
  cases hk : K.keys[i]? with
  | none => rw [hk] at h; cases h
  | some k => rw [hk] at h; exact ⟨k, rfl, h⟩

theorem subs_at {i : Nat} {k : Key} (h : K.keys[i]? = some k) : K.subs i = (K.below k).map K.number := by unfold subs; rw [h]

theorem node_of_at {i : Nat} {k : Key} (h : K.keys[i]? = some k) : K.project.node i = K.nodeOf k := by
  show (K.keys[i]?).bind K.nodeOf = _
  rw [h]; rfl

/-! ### What builders have -/

theorem below_pdf (d : Doc) : K.below (.target d ".pdf".toList) = [.target d ".tex".toList, .converter d, .final d] := 
  (if_pos rfl : (if ".pdf".toList = ".pdf".toList then [.target d ".tex".toList, .converter d, .final d]
    else [Key.deps d ".pdf".toList, .page d ".pdf".toList]) = _)

theorem below_target (d : Doc) {t : Str} (h : t ≠ ".pdf".toList) : K.below (.target d t) = [.deps d t, .page d t] := if_neg h

/-- The sub-builders of a valid key are valid. -/
theorem below_valid (hT : K.Table) {k m : Key} (hk : K.Valid k) (hm : m ∈ K.below k) : K.Valid m := by
  cases k with
  | root =>
    obtain ⟨d, hd, hm⟩ := List.mem_flatMap.1 hm
    obtain ⟨eb, he, rfl⟩ := List.mem_map.1 hm
    exact ⟨hd, eb.2, hT.has d hd eb he⟩
  | target d t =>
    by_cases ht : t = ".pdf".toList
    · subst ht
      rw [below_pdf] at hm
      obtain ⟨hd, b, hg⟩ := hk
      simp only [List.mem_cons, List.not_mem_nil, or_false] at hm
      rcases hm with rfl | rfl | rfl
      · exact ⟨hd, hT.tex d hd b hg⟩
      · exact ⟨hd, b, hg⟩
      · exact ⟨hd, b, hg⟩
    · rw [below_target d ht] at hm
      simp only [List.mem_cons, List.not_mem_nil, or_false] at hm
      rcases hm with rfl | rfl
      · exact ⟨ht, hk⟩
      · exact ⟨ht, hk⟩
  | deps d t =>
    obtain ⟨j, hj, rfl⟩ := List.mem_map.1 hm
    exact ⟨hk.1, hk.2, List.mem_range.1 hj⟩
  | page | copy | image | converter | final => cases hm

theorem images_valid {d : Doc} {t : Str} {m : Key} (hk : K.Valid (.deps d t)) (hm : m ∈ K.imagesOf d t) : K.Valid m := by
  obtain ⟨j, hj, rfl⟩ := List.mem_map.1 hm
  exact ⟨hk.1, hk.2, List.mem_range.1 hj⟩

/-- The steps of valid keys. -/
theorem node_step (hT : K.Table) {k : Key} {s : Step} (hk : K.Valid k) (h : K.nodeOf k = some (.step s)) :
    match k with
    | .page d t => d ∈ K.docs ∧ K.IsPage d t s
    | .copy d t _ => d ∈ K.docs ∧ K.IsCopy d t s
    | .image d t _ => d ∈ K.docs ∧ K.IsImage d t s
    | .converter d => d ∈ K.docs ∧ K.IsConverter d s
    | .final d => d ∈ K.docs ∧ K.IsFinal d s
    | _ => False := by
  cases k with
  | root => cases h
  | deps => cases h
  | target d t =>
    obtain ⟨o, _, h⟩ := Option.map_eq_some_iff.1 h
    cases h
  | page d t =>
    obtain ⟨o, ho, h⟩ := Option.map_eq_some_iff.1 h
    obtain ⟨b, hb, rfl⟩ := Option.map_eq_some_iff.1 ho
    cases h
    exact ⟨hk.2.1, hk.1, b, hb, rfl⟩
  | copy d t j =>
    obtain ⟨c, hc, h⟩ := Option.map_eq_some_iff.1 h
    cases h
    exact ⟨hk.2.1.1, hk.1, hk.2.1.2, c.1, c.2, List.mem_of_getElem? hc, rfl⟩
  | image d t j =>
    obtain ⟨c, hc, h⟩ := Option.map_eq_some_iff.1 h
    cases h
    exact ⟨hk.2.1.1, hk.1, hk.2.1.2, List.mem_of_getElem? hc⟩
  | converter d =>
    obtain ⟨o, ho, h⟩ := Option.map_eq_some_iff.1 h
    obtain ⟨b, hb, rfl⟩ := Option.map_eq_some_iff.1 ho
    cases h
    exact ⟨hk.1, hk.2, b, hb, rfl⟩
  | final d =>
    obtain ⟨o, ho, h⟩ := Option.map_eq_some_iff.1 h
    obtain ⟨b, hb, rfl⟩ := Option.map_eq_some_iff.1 ho
    cases h
    exact ⟨hk.1, b, hb, rfl⟩

/-- Every step is one of the specification. -/
theorem makes (hT : K.Table) {i : Nat} {s : Step} (h : K.project.node i = some (.step s)) : K.Makes s := by
  obtain ⟨k, hi, hk⟩ := node_at h
  have hv := (mem_keys hT).1 (mem_of_at hi)
  have := node_step hT hv hk
  cases k with
  | root | target | deps => exact this.elim
  | page d t => exact .inl ⟨d, this.1, t, .inl this.2⟩
  | copy d t j => exact .inl ⟨d, this.1, t, .inr (.inl this.2)⟩
  | image d t j => exact .inl ⟨d, this.1, t, .inr (.inr this.2)⟩
  | converter d => exact .inr (.inl ⟨d, this.1, .inl this.2⟩)
  | final d => exact .inr (.inr ⟨d, this.1, this.2⟩)

/-- Valid keys have a builder. -/
theorem node_group {k : Key} (hk : K.Valid k) :
    match k with
    | .root | .deps _ _ => ∃ g, K.nodeOf k = some (.group g) ∧ g.parallel = true
    | .target _ _ => ∃ g, K.nodeOf k = some (.group g) ∧ g.parallel = false ∧ g.clear = false ∧ g.inputs ≠ []
    | _ => True := by
  cases k with
  | root => exact ⟨_, rfl, rfl⟩
  | deps => exact ⟨_, rfl, rfl⟩
  | target d t =>
    obtain ⟨hd, b, hb⟩ := hk
    refine ⟨K.targetGroup d t (toStr b.out.full), ?_, rfl, rfl, nofun⟩
    show (K.out d t).map _ = _
    unfold out
    rw [hb]; rfl
  | _ => trivial

/-- The sub-builders there can be during a build. -/
theorem grown_at {runs : Nat → Nat} {i : Nat} {k : Key} (h : K.keys[i]? = some k) (hk : ∀ d t, k ≠ .deps d t) :
    grown K.subs K.adds runs i = (K.below k).map K.number := by
  unfold grown
  rw [adds_none h hk, subs_at h]
  simp

theorem grown_deps {runs : Nat → Nat} {i m : Nat} {d : Doc} {t : Str} (h : K.keys[i]? = some (.deps d t))
    (hm : m ∈ grown K.subs K.adds runs i) : ∃ k, (k ∈ K.below (.deps d t) ∨ k ∈ K.imagesOf d t) ∧ m = K.number k := by
  unfold grown at hm
  rcases List.mem_append.1 hm with hm | hm
  · rw [subs_at h] at hm
    obtain ⟨k, hk, rfl⟩ := List.mem_map.1 hm
    exact ⟨k, .inl hk, rfl⟩
  · have ha : K.adds i = some (K.number (.page d t), (K.imagesOf d t).map K.number) := by unfold adds; rw [h]
    rw [ha] at hm
    simp only at hm
    split at hm
    · cases hm
    · obtain ⟨k, hk, rfl⟩ := List.mem_map.1 hm
      exact ⟨k, .inr hk, rfl⟩

/-! ### The builders use what is made before -/

section
variable {U : Scope} (hT : K.Table) (hP : K.Proper U)
include hT hP

/-- A step that uses files of the author. -/
def First' : Key → Prop
  | .page _ _ | .copy _ _ _ | .image _ _ _ => True
  | _ => False

omit hP in
theorem isFirst {k : Key} {s : Step} (hk : K.Valid k) (hf : First' k) (h : K.nodeOf k = some (.step s)) : K.IsFirst s := by
  have := node_step hT hk h
  cases k with
  | page d t => exact ⟨d, this.1, t, .inl this.2⟩
  | copy d t j => exact ⟨d, this.1, t, .inr (.inl this.2)⟩
  | image d t j => exact ⟨d, this.1, t, .inr (.inr this.2)⟩
  | _ => exact hf.elim

omit hP in
theorem first_node {k : Key} (hk : K.Valid k) (hf : First' k) : ∃ s, K.nodeOf k = some (.step s) := by
  cases k with
  | page d t =>
    obtain ⟨_, _, b, hb⟩ := hk
    refine ⟨K.pageStep d t (toStr b.out.full), ?_⟩
    show (K.out d t).map _ = _
    unfold out; rw [hb]; rfl
  | copy d t j =>
    obtain ⟨_, _, hj⟩ := hk
    refine ⟨K.copyStep (K.copies d t)[j].1 (K.copies d t)[j].2, ?_⟩
    show (K.copies d t)[j]?.map _ = _
    rw [List.getElem?_eq_getElem hj]; rfl
  | image d t j =>
    obtain ⟨_, _, hj⟩ := hk
    refine ⟨(K.images d t)[j], ?_⟩
    show (K.images d t)[j]?.map _ = _
    rw [List.getElem?_eq_getElem hj]; rfl
  | _ => exact hf.elim

theorem guarded_first (B : Nat → List Nat) (Q : Nat → Prop) {k : Key} (hk : K.Valid k) (hf : First' k) :
    Guarded K.project B Q (K.number k) := by
  have hm := (mem_keys hT).2 hk
  obtain ⟨s, hs⟩ := first_node hT hk hf
  refine .step Q _ s (by rw [node_number hm]; exact hs) ?_
  rintro p hp ⟨j, t, -, hj, rfl⟩
  exact absurd hp (hP.sources s t (isFirst hT hk hf hs) (makes hT hj))

theorem guarded_deps (runs : Nat → Nat) (Q : Nat → Prop) {d : Doc} {t : Str} (hk : K.Valid (.deps d t)) :
    Guarded K.project (grown K.subs K.adds runs) Q (K.number (.deps d t)) := by
  have hm := (mem_keys hT).2 hk
  obtain ⟨g, hg, hpar⟩ := node_group hk
  refine .parallel Q _ g (by rw [node_number hm]; exact hg) hpar fun m hm' => ?_
  obtain ⟨k, hk', rfl⟩ := grown_deps (at_number hm) hm'
  rcases hk' with hk' | hk'
  · refine guarded_first hT hP _ _ (below_valid hT hk hk') ?_
    obtain ⟨j, -, rfl⟩ := List.mem_map.1 hk'
    trivial
  · refine guarded_first hT hP _ _ (images_valid hk hk') ?_
    obtain ⟨j, -, rfl⟩ := List.mem_map.1 hk'
    trivial

theorem guarded_page_target (runs : Nat → Nat) (Q : Nat → Prop) {d : Doc} {t : Str} (ht : t ≠ ".pdf".toList) (hk : K.Valid (.target d t)) :
    Guarded K.project (grown K.subs K.adds runs) Q (K.number (.target d t)) := by
  have hm := (mem_keys hT).2 hk
  obtain ⟨g, hg, hpar, _⟩ := node_group hk
  refine .sequence Q _ g (by rw [node_number hm]; exact hg) hpar fun a m b hs => ?_
  have hmem : m ∈ grown K.subs K.adds runs (K.number (.target d t)) := by rw [hs]; simp
  rw [grown_at (at_number hm) (by nofun), below_target d ht] at hmem
  simp only [List.map_cons, List.map_nil, List.mem_cons, List.not_mem_nil, or_false] at hmem
  rcases hmem with rfl | rfl
  · exact guarded_deps hT hP runs _ ⟨ht, hk⟩
  · exact guarded_first hT hP _ _ (k := .page d t) ⟨ht, hk⟩ trivial

omit hP in
/-- The page is part of the builder of its target. -/
theorem part_page (B : Nat → List Nat) (hB : ∀ n m, m ∈ K.subs n → m ∈ B n) {d : Doc} {t : Str} (ht : t ≠ ".pdf".toList)
    (hk : K.Valid (.target d t)) : Part K.project B (K.number (.target d t)) (K.number (.page d t)) := by
  have hm := (mem_keys hT).2 hk
  have hp : K.Valid (.page d t) := ⟨ht, hk⟩
  have hpm := (mem_keys hT).2 hp
  obtain ⟨g, hg, _⟩ := node_group hk
  obtain ⟨s, hs⟩ := first_node hT hp trivial
  refine .group _ (K.number (.page d t)) _ g (by rw [node_number hm]; exact hg) (hB _ _ ?_) (.step _ s (by rw [node_number hpm]; exact hs))
  rw [subs_number hm, below_target d ht]
  simp

theorem guarded_target (runs : Nat → Nat) (Q : Nat → Prop) {d : Doc} {t : Str} (hk : K.Valid (.target d t)) :
    Guarded K.project (grown K.subs K.adds runs) Q (K.number (.target d t)) := by
  by_cases ht : t = ".pdf".toList
  · subst ht
    have hm := (mem_keys hT).2 hk
    obtain ⟨g, hg, hpar, _⟩ := node_group hk
    have hd := hk.1
    obtain ⟨b, hb⟩ := hk.2
    obtain ⟨b', hb'⟩ := hT.tex d hd b hb
    have hvt : K.Valid (.target d ".tex".toList) := ⟨hd, b', hb'⟩
    have hvc : K.Valid (.converter d) := hk
    have hvf : K.Valid (.final d) := hk
    have hne : ".tex".toList ≠ ".pdf".toList := by decide
    have hcn : K.project.node (K.number (.converter d)) = some (.step (K.converterStep d (toStr b'.out.full))) := by
      rw [node_number ((mem_keys hT).2 hvc)]
      show (K.out d _).map _ = _
      unfold out; rw [hb']; rfl
    have hfn : K.project.node (K.number (.final d)) = some (.step (K.copyStep (K.compiled d) (toStr b.out.full))) := by
      rw [node_number ((mem_keys hT).2 hvf)]
      show (K.out d _).map _ = _
      unfold out; rw [hb]; rfl
    have hpn : K.project.node (K.number (.page d ".tex".toList)) = some (.step (K.pageStep d ".tex".toList (toStr b'.out.full))) := by
      have hvp : K.Valid (.page d ".tex".toList) := ⟨hne, hvt⟩
      rw [node_number ((mem_keys hT).2 hvp)]
      show (K.out d _).map _ = _
      unfold out; rw [hb']; rfl
    refine .sequence Q _ g (by rw [node_number hm]; exact hg) hpar fun a m c hs => ?_
    rw [grown_at (at_number hm) (by nofun), below_pdf] at hs
    simp only [List.map_cons, List.map_nil] at hs
    rcases a with _ | ⟨x, _ | ⟨y, _ | ⟨z, a⟩⟩⟩
    · simp only [List.nil_append, List.cons.injEq] at hs
      rw [← hs.1]
      exact guarded_page_target hT hP runs _ hne hvt
    · simp only [List.nil_append, List.cons_append, List.cons.injEq] at hs
      obtain ⟨rfl, rfl, -⟩ := hs
      refine .step _ _ _ hcn ?_
      intro p hp _
      have hp : p = toStr b'.out.full := by
        have := List.mem_singleton.1 hp
        injection this
      subst hp
      exact ⟨_, _, .inr ⟨_, List.mem_singleton.2 rfl, part_page hT _ (fun n m h => grown_sub runs n m h) hne hvt⟩, hpn, rfl⟩
    · simp only [List.nil_append, List.cons_append, List.cons.injEq] at hs
      obtain ⟨rfl, rfl, rfl, -⟩ := hs
      refine .step _ _ _ hfn ?_
      intro p hp _
      have hp : p = K.compiled d := by
        have := List.mem_singleton.1 hp
        injection this
      subst hp
      exact ⟨_, _, .inr ⟨K.number (.converter d), by simp, .step _ _ hcn⟩, hcn, rfl⟩
    · simp at hs
  · exact guarded_page_target hT hP runs Q ht hk

theorem guarded_root (runs : Nat → Nat) (Q : Nat → Prop) : Guarded K.project (grown K.subs K.adds runs) Q (K.number .root) := by
  have hv : K.Valid .root := trivial
  have hm := (mem_keys hT).2 hv
  obtain ⟨g, hg, hpar⟩ := node_group hv
  refine .parallel Q _ g (by rw [node_number hm]; exact hg) hpar fun m hm' => ?_
  rw [grown_at (at_number hm) (by nofun)] at hm'
  obtain ⟨k, hk, rfl⟩ := List.mem_map.1 hm'
  have hkv := below_valid hT hv hk
  obtain ⟨d, hd, hk⟩ := List.mem_flatMap.1 hk
  obtain ⟨eb, he, rfl⟩ := List.mem_map.1 hk
  exact guarded_target hT hP runs Q hkv

/-! ### The builders that are added -/

omit hP in
theorem number_inj {k k' : Key} (hk : K.Valid k) (h : K.number k = K.number k') : k = k' ∨ ¬ K.Valid k' := by
  by_cases hk' : K.Valid k'
  · left
    have h1 := at_number ((mem_keys hT).2 hk)
    rw [h, at_number ((mem_keys hT).2 hk')] at h1
    injection h1 with h1
    exact h1.symm
  · exact .inr hk'

omit hT hP in
/-- A part of a builder that has no sub-builders is the builder. -/
theorem part_step {B : Nat → List Nat} {n i : Nat} {s : Step} (hn : K.project.node n = some (.step s)) (h : Part K.project B n i) : i = n := by
  cases h with
  | step => rfl
  | group _ m _ g hg => rw [hn] at hg; cases hg

omit hT hP in
/-- What is said of the number of a key is said of all builders with this key. -/
theorem guarded_same {runs : Nat → Nat} {Q : Nat → Prop} {i : Nat} {k : Key} (hi : K.keys[i]? = some k)
    (h : Guarded K.project (grown K.subs K.adds runs) Q (K.number k)) : Guarded K.project (grown K.subs K.adds runs) Q i := by
  have hk := at_number (mem_of_at hi)
  have h1 : K.project.node (K.number k) = K.project.node i := by rw [node_of_at hk, node_of_at hi]
  have h2 : grown K.subs K.adds runs (K.number k) = grown K.subs K.adds runs i := by
    have ha : K.adds (K.number k) = K.adds i := by unfold adds; rw [hk, hi]
    unfold grown
    rw [subs_at hk, subs_at hi, ha]
  cases h with
  | step _ _ s hs hc => exact .step Q i s (h1 ▸ hs) hc
  | parallel _ _ g hg hp hm => exact .parallel Q i g (h1 ▸ hg) hp (h2 ▸ hm)
  | sequence _ _ g hg hp hm => exact .sequence Q i g (h1 ▸ hg) hp (h2 ▸ hm)

theorem fits : Fits K.project K.subs K.adds where
  groups n p l h := by
    obtain ⟨d, t, hk, -, -⟩ := adds_cases h
    exact ⟨_, (node_of_at hk).trans rfl⟩
  pages n p l h := by
    obtain ⟨d, t, hk, rfl, -⟩ := adds_cases h
    have hvd : K.Valid (.deps d t) := (mem_keys hT).1 (mem_of_at hk)
    have hv : K.Valid (.page d t) := hvd
    obtain ⟨s, hs⟩ := first_node hT hv trivial
    refine ⟨s, by rw [node_number ((mem_keys hT).2 hv)]; exact hs, ?_⟩
    have := (node_step hT hv hs).2
    obtain ⟨_, b, _, rfl⟩ := this
    rfl
  added n p l h m hm := by
    obtain ⟨d, t, hk, -, rfl⟩ := adds_cases h
    obtain ⟨k, hk', rfl⟩ := List.mem_map.1 hm
    have hv := images_valid ((mem_keys hT).1 (mem_of_at hk)) hk'
    obtain ⟨j, -, rfl⟩ := List.mem_map.1 hk'
    have hat := at_number ((mem_keys hT).2 hv)
    refine ⟨adds_none hat nofun, fun x hx => ?_⟩
    cases hx with
    | child _ _ g _ hx => rw [subs_at hat] at hx; cases hx
    | deeper _ y _ g _ hx => rw [subs_at hat] at hx; cases hx
  kept n p l h m g hg hn := by
    obtain ⟨d, t, hk, -, -⟩ := adds_cases h
    have hvd := (mem_keys hT).1 (mem_of_at hk)
    obtain ⟨k, hkm, hkg⟩ := node_at hg
    have hv := (mem_keys hT).1 (mem_of_at hkm)
    rw [subs_at hkm] at hn
    obtain ⟨k', hk', rfl⟩ := List.mem_map.1 hn
    have hv' := below_valid hT hv hk'
    have he : k' = .deps d t := by
      rw [at_number ((mem_keys hT).2 hv')] at hk
      injection hk
    subst he
    cases k with
    | root =>
      obtain ⟨d', _, hk'⟩ := List.mem_flatMap.1 hk'
      obtain ⟨eb, _, hk'⟩ := List.mem_map.1 hk'
      cases hk'
    | target d' t' =>
      obtain ⟨g', hg', _, hc, _⟩ := node_group hv
      rw [hkg] at hg'
      cases hg'
      exact hc
    | deps d' t' =>
      obtain ⟨j, _, hk'⟩ := List.mem_map.1 hk'
      cases hk'
    | page | copy | image | converter | final => cases hk'
  beside n p l h m hu := by
    obtain ⟨d, t, hk, rfl, -⟩ := adds_cases h
    have hvd : K.Valid (.deps d t) := (mem_keys hT).1 (mem_of_at hk)
    clear h
    induction hu with
    | deeper m x n g hm hx _ ih => exact .group m x _ g hm hx (ih hk)
    | child m n g hm hn =>
      obtain ⟨k, hkm, hkg⟩ := node_at hm
      have hv := (mem_keys hT).1 (mem_of_at hkm)
      rw [subs_at hkm] at hn
      obtain ⟨k', hk', rfl⟩ := List.mem_map.1 hn
      have hv' := below_valid hT hv hk'
      have he : k' = .deps d t := by
        rw [at_number ((mem_keys hT).2 hv')] at hk
        injection hk
      subst he
      cases k with
      | root =>
        obtain ⟨d', _, hk'⟩ := List.mem_flatMap.1 hk'
        obtain ⟨eb, _, hk'⟩ := List.mem_map.1 hk'
        cases hk'
      | target d' t' =>
        by_cases ht : t' = ".pdf".toList
        · subst ht
          rw [below_pdf] at hk'
          simp at hk'
        · rw [below_target d' ht] at hk'
          have : d = d' ∧ t = t' := by simpa using hk'
          obtain ⟨rfl, rfl⟩ := this
          have hvp : K.Valid (.page d t) := hvd
          obtain ⟨s, hs⟩ := first_node hT hvp trivial
          refine .group m (K.number (.page d t)) _ g hm ?_ (.step _ s (by rw [node_number ((mem_keys hT).2 hvp)]; exact hs))
          rw [subs_at hkm, below_target d ht]
          simp
      | deps d' t' =>
        obtain ⟨j, _, hk'⟩ := List.mem_map.1 hk'
        cases hk'
      | page | copy | image | converter | final => cases hk'
  apart n p l h hp := by
    obtain ⟨d, t, hk, rfl, -⟩ := adds_cases h
    have hvd : K.Valid (.deps d t) := (mem_keys hT).1 (mem_of_at hk)
    have hvp : K.Valid (.page d t) := hvd
    cases hp with
    | step s _ hs => rw [node_of_at hk] at hs; cases hs
    | group _ m _ g hg hm hp =>
      obtain ⟨k, hk', rfl⟩ := grown_deps hk hm
      have hv : K.Valid k := hk'.elim (below_valid hT hvd) (images_valid hvd)
      have hf : First' k ∧ k ≠ .page d t := by
        rcases hk' with hk' | hk' <;> obtain ⟨j, -, rfl⟩ := List.mem_map.1 hk' <;> exact ⟨trivial, nofun⟩
      obtain ⟨s, hs⟩ := first_node hT hv hf.1
      have he := part_step ((node_number ((mem_keys hT).2 hv)).trans hs) hp
      rcases number_inj hT hvp he with he | he
      · exact hf.2 he.symm
      · exact he hv
  guarded n p l m h hp runs := by
    obtain ⟨d, t, hk, rfl, -⟩ := adds_cases h
    have hvd : K.Valid (.deps d t) := (mem_keys hT).1 (mem_of_at hk)
    have hvp : K.Valid (.page d t) := hvd
    have hex : ∃ nd, K.project.node m = some nd := by cases hp with
      | step s _ hs => exact ⟨_, hs⟩
      | group _ _ _ g hg => exact ⟨_, hg⟩
    obtain ⟨nd, hnd⟩ := hex
    obtain ⟨k, hkm, hkn⟩ := node_at hnd
    have hv := (mem_keys hT).1 (mem_of_at hkm)
    have hstep : ∀ s, K.nodeOf k = some (.step s) → k = .page d t := by
      intro s hs
      have he := part_step ((node_of_at hkm).trans hs) hp
      have h1 := at_number ((mem_keys hT).2 hvp)
      rw [he, hkm] at h1
      injection h1
    refine guarded_same hkm ?_
    cases k with
    | root => exact guarded_root hT hP runs _
    | target d' t' => exact guarded_target hT hP runs _ hv
    | deps d' t' => exact guarded_deps hT hP runs _ hv
    | page d' t' => exact guarded_first hT hP _ _ hv trivial
    | copy d' t' j => exact guarded_first hT hP _ _ hv trivial
    | image d' t' j => exact guarded_first hT hP _ _ hv trivial
    | converter d' =>
      obtain ⟨o, ho, h⟩ := Option.map_eq_some_iff.1 hkn
      cases (hstep _ (hkn.trans (congrArg some h.symm)))
    | final d' =>
      obtain ⟨o, ho, h⟩ := Option.map_eq_some_iff.1 hkn
      cases (hstep _ (hkn.trans (congrArg some h.symm)))

end

end Kit

end Verif.Build
