import Verif.Props.Paths
import Verif.Spec.Targets
import Verif.Lemmas.Dict

namespace Verif.Targets

open Verif Verif.Paths Verif.Utils

theorem known_eq : known = supported := rfl

theorem dot_of (t : Str) (h : t.head? = some '.') : dot t = t := by simp [dot, h]

theorem known_shape (t : Str) (h : t ∈ known) :
    ∃ n, t = '.' :: n ∧ IsName n ∧ n.head? ≠ some '.' ∧ n.getLast? ≠ some '.' ∧ '/' ∉ t ∧ n ≠ ".cache".toList := by
  simp only [known, List.mem_cons, List.not_mem_nil, or_false] at h
  rcases h with h | h | h | h | h | h <;> subst h
  · exact ⟨"html".toList, rfl, by refine ⟨by decide, by decide, by decide⟩, by decide, by decide, by decide, by decide⟩
  · exact ⟨"xhtml".toList, rfl, by refine ⟨by decide, by decide, by decide⟩, by decide, by decide, by decide, by decide⟩
  · exact ⟨"tex".toList, rfl, by refine ⟨by decide, by decide, by decide⟩, by decide, by decide, by decide, by decide⟩
  · exact ⟨"txt".toList, rfl, by refine ⟨by decide, by decide, by decide⟩, by decide, by decide, by decide, by decide⟩
  · exact ⟨"pdf".toList, rfl, by refine ⟨by decide, by decide, by decide⟩, by decide, by decide, by decide, by decide⟩
  · exact ⟨"epub".toList, rfl, by refine ⟨by decide, by decide, by decide⟩, by decide, by decide, by decide, by decide⟩

theorem make_eq (env : Env) (he : EnvOk env) (d : Doc) (dir : Path) (stem t : Str) (ha : At d dir stem) (ht : t ∈ known) :
    make env d t = .ok ⟨t, decide (t ∉ d.targets), place env d dir stem t⟩ := by
  obtain ⟨n, e, hsub, hn, hs⟩ := ha.split
  obtain ⟨m, hm, h1, h2, h3, h4, h5⟩ := known_shape t ht
  have hsrc : d.src = ⟨d.src.root, child dir n⟩ := by rw [← hsub]
  have := C34_placed env he.root he.cache [.other] [] (by simp) (.source d.src) dir n stem e
    (by rw [hsrc]; exact .source _ _ ha.rel) ha.good hn hs (some t) ⟨false, [m]⟩
    (by rw [hm]; exact .dotted m _ h1 h2 h3) none (some t) (by simp) (by simpa using h4)
    (if t ∈ d.targets then false else true) false he.media
  unfold make
  simp only [List.cons_append, List.nil_append] at this
  simp only [this]
  by_cases hin : t ∈ d.targets <;> simp [hin, place, hm, dotted]

/-- The builders of a document that a table holds. -/
def Has (tb : Table) (d : Doc) (t : Str) : Prop := (buildersOf tb d).has t = true

/-- The builders of a table are made for their documents and targets, and they are wanted. -/
structure Core (env : Env) (root : Doc) (docs : List Doc) (tb : Table) : Prop where
  sound : ∀ d ∈ docs, ∀ t b, (buildersOf tb d).get? t = some b → make env d t = .ok b ∧ Wanted root d t ∧ t ∈ known
  nodup : ∀ d ∈ docs, (buildersOf tb d).keys.Nodup

/-- What holds of every table on the way. -/
structure Inv (tools : Tools) (env : Env) (root : Doc) (docs : List Doc) (tb : Table) : Prop extends Core env root docs tb where
  tex : ∀ d ∈ docs, Has tb d ".pdf".toList → Has tb d ".tex".toList ∧ tools.pdf = true
  xhtml : Has tb root ".epub".toList → (∀ d ∈ docs, Has tb d ".xhtml".toList) ∧ tools.epub = true

theorem of_set (tb : Table) (d d' : Doc) (bs : Builders) :
    buildersOf (tb.set d.src bs) d' = if d.src = d'.src then bs else buildersOf tb d' := by
  unfold buildersOf
  rw [Dict.get?_set]
  by_cases h : d.src = d'.src
  · simp [h]
  · simp [h]

theorem has_set (bs : Builders) (k k' : Str) (b : Builder) : (bs.set k b).has k' = true ↔ k' = k ∨ bs.has k' = true := by
  simp only [Dict.has, Dict.get?_set]
  by_cases h : k = k'
  · simp [h]
  · simp [h, Ne.symm h]

section

variable {env : Env} {root : Doc} {docs : List Doc} {tb : Table} {tools : Tools}

theorem core_set (hp : Project root docs) (hc : Core env root docs tb) (d : Doc) (hd : d ∈ docs) (t : Str) (b : Builder)
    (bs : Builders)
    (hbs : ∀ t b, bs.get? t = some b → make env d t = .ok b ∧ Wanted root d t ∧ t ∈ known) (hn : bs.keys.Nodup)
    (hm : make env d t = .ok b) (hw : Wanted root d t) (hk : t ∈ known) : Core env root docs (tb.set d.src (bs.set t b)) where
  sound := by
    intro d' hd' t' b' h
    rw [of_set] at h
    by_cases he : d.src = d'.src
    · have := hp.distinct d hd d' hd' he
      subst this
      rw [if_pos rfl, Dict.get?_set] at h
      by_cases ht : t = t'
      · subst ht; simp at h; subst h; exact ⟨hm, hw, hk⟩
      · rw [if_neg ht] at h; exact hbs _ _ h
    · rw [if_neg he] at h; exact hc.sound d' hd' t' b' h
  nodup := by
    intro d' hd'
    rw [of_set]
    by_cases he : d.src = d'.src
    · rw [if_pos he]; exact Dict.keys_set_nodup _ _ _ hn
    · rw [if_neg he]; exact hc.nodup d' hd'

theorem Has_set (hp : Project root docs) (d d' : Doc) (hd : d ∈ docs) (hd' : d' ∈ docs) (bs : Builders) (t' : Str) :
    Has (tb.set d.src bs) d' t' ↔ (d' = d ∧ bs.has t' = true) ∨ (d' ≠ d ∧ Has tb d' t') := by
  unfold Has
  rw [of_set]
  by_cases he : d' = d
  · subst he; simp
  · have : d.src ≠ d'.src := fun h => he (hp.distinct d hd d' hd' h).symm
    simp [this, he]

theorem make_ok (he : EnvOk env) (hp : Project root docs) (d : Doc) (hd : d ∈ docs) (t : Str) (hk : t ∈ known) :
    ∃ b, make env d t = .ok b := by
  obtain ⟨dir, stem, ha⟩ := hp.at_ d hd
  exact ⟨_, make_eq env he d dir stem t ha hk⟩

theorem ensure_ok (he : EnvOk env) (hp : Project root docs) (hc : Core env root docs tb) (d : Doc) (hd : d ∈ docs) (t : Str)
    (hw : Wanted root d t) (hk : t ∈ known) : ∃ bs, ensure env d t (buildersOf tb d) = .ok bs ∧
      Core env root docs (tb.set d.src bs) ∧ (∀ t', bs.has t' = true ↔ t' = t ∨ Has tb d t') ∧
      (∀ t b, bs.get? t = some b → make env d t = .ok b ∧ Wanted root d t ∧ t ∈ known) ∧ bs.keys.Nodup := by
  unfold ensure
  by_cases hh : (buildersOf tb d).has t = true
  · rw [if_pos hh]
    refine ⟨_, rfl, ⟨?_, ?_⟩, ?_, hc.sound d hd, hc.nodup d hd⟩
    · intro d' hd' t' b' h
      rw [of_set] at h
      by_cases hs : d.src = d'.src
      · have := hp.distinct d hd d' hd' hs
        subst this
        rw [if_pos rfl] at h
        exact hc.sound _ hd _ _ h
      · rw [if_neg hs] at h
        exact hc.sound _ hd' _ _ h
    · intro d' hd'
      rw [of_set]
      by_cases hs : d.src = d'.src
      · rw [if_pos hs]; exact hc.nodup d hd
      · rw [if_neg hs]; exact hc.nodup d' hd'
    · intro t'
      constructor
      · exact .inr
      · rintro (h | h)
        · subst h; exact hh
        · exact h
  · rw [if_neg hh]
    obtain ⟨b, hb⟩ := make_ok he hp d hd t hk
    rw [hb]
    refine ⟨_, rfl, core_set hp hc d hd t b _ (hc.sound d hd) (hc.nodup d hd) hb hw hk, ?_, ?_, ?_⟩
    · intro t'; exact has_set _ _ _ _
    · intro t' b' h
      rw [Dict.get?_set] at h
      by_cases ht : t = t'
      · subst ht; simp at h; subst h; exact ⟨hb, hw, hk⟩
      · rw [if_neg ht] at h; exact hc.sound d hd _ _ h
    · exact Dict.keys_set_nodup _ _ _ (hc.nodup d hd)

/-- Adding the builders for `.pdf`. -/
theorem addPdf_spec (he : EnvOk env) (hp : Project root docs) (hi : Inv tools env root docs tb) (d : Doc) (hd : d ∈ docs)
    (ht : ".pdf".toList ∈ d.targets) :
    (tools.pdf = false ∧ addPdf tools env d tb = .error .build) ∨
    (tools.pdf = true ∧ ∃ tb', addPdf tools env d tb = .ok tb' ∧ Inv tools env root docs tb' ∧
      ∀ d' ∈ docs, ∀ t', Has tb' d' t' ↔ (d' = d ∧ (t' = ".pdf".toList ∨ t' = ".tex".toList)) ∨ Has tb d' t') := by
  obtain ⟨bs, h1, h2, h3, h4, h5⟩ := ensure_ok he hp hi.toCore d hd ".tex".toList (.inr (.inl ⟨rfl, ht⟩)) (by decide)
  unfold addPdf
  simp only [h1]
  cases hpdf : tools.pdf with
  | false => exact .inl ⟨rfl, rfl⟩
  | true =>
    right
    obtain ⟨b, hb⟩ := make_ok he hp d hd ".pdf".toList (by decide)
    simp only [hb]
    have hhas : ∀ d' ∈ docs, ∀ t', Has (tb.set d.src (bs.set ".pdf".toList b)) d' t' ↔
        (d' = d ∧ (t' = ".pdf".toList ∨ t' = ".tex".toList)) ∨ Has tb d' t' := by
      intro d' hd' t'
      rw [Has_set hp d d' hd hd', has_set, h3]
      by_cases h : d' = d
      · subst h; simp [or_assoc]
      · simp [h]
    refine ⟨trivial, _, rfl, ⟨core_set hp hi.toCore d hd _ b bs h4 h5 hb (.inl ⟨ht, fun h => absurd h (by decide)⟩) (by decide), ?_, ?_⟩,
      hhas⟩
    · intro d' hd' hx
      rw [hhas _ hd'] at hx ⊢
      refine ⟨?_, hpdf⟩
      rcases hx with ⟨h, -⟩ | h
      · exact .inl ⟨h, .inr rfl⟩
      · exact .inr (hi.tex d' hd' h).1
    · intro hx
      rw [hhas _ hp.root_mem] at hx
      rcases hx with ⟨-, h | h⟩ | h
      · exact absurd h (by decide)
      · exact absurd h (by decide)
      · refine ⟨?_, (hi.xhtml h).2⟩
        intro d' hd'
        rw [hhas _ hd']
        exact .inr ((hi.xhtml h).1 d' hd')

theorem ensureAll_spec (he : EnvOk env) (hp : Project root docs) (t : Str) (hk : t ∈ known) (hw : ∀ d ∈ docs, Wanted root d t) :
    ∀ (ds : List Doc) (tb : Table), Core env root docs tb → ds ⊆ docs → ∃ tb', ensureAll env t ds tb = .ok tb' ∧
      Core env root docs tb' ∧ ∀ d' ∈ docs, ∀ t', Has tb' d' t' ↔ (d' ∈ ds ∧ t' = t) ∨ Has tb d' t' := by
  intro ds
  induction ds with
  | nil => intro tb hc _; exact ⟨tb, rfl, hc, by simp⟩
  | cons d ds ih =>
    intro tb hc hs
    have hd : d ∈ docs := hs (by simp)
    obtain ⟨bs, h1, h2, h3, h4, h5⟩ := ensure_ok he hp hc d hd t (hw d hd) hk
    obtain ⟨tb', e1, e2, e3⟩ := ih _ h2 (fun x hx => hs (by simp [hx]))
    refine ⟨tb', by simp only [ensureAll, h1, e1], e2, ?_⟩
    intro d' hd' t'
    rw [e3 d' hd', Has_set hp d d' hd hd', h3]
    by_cases h : d' = d
    · subst h
      simp only [List.mem_cons, true_or, true_and, ne_eq, not_true_eq_false, false_and, or_false]
      constructor
      · rintro (⟨-, h⟩ | h | h)
        · exact .inl h
        · exact .inl h
        · exact .inr h
      · rintro (h | h)
        · exact .inr (.inl h)
        · exact .inr (.inr h)
    · simp [h]

/-- Adding the builders for `.epub`. -/
theorem addEpub_spec (he : EnvOk env) (hp : Project root docs) (hi : Inv tools env root docs tb)
    (ht : ".epub".toList ∈ root.targets) :
    (tools.epub = false ∧ addEpub tools env docs root tb = .error .build) ∨
    (tools.epub = true ∧ ∃ tb', addEpub tools env docs root tb = .ok tb' ∧ Inv tools env root docs tb' ∧
      ∀ d' ∈ docs, ∀ t', Has tb' d' t' ↔ (d' = root ∧ t' = ".epub".toList) ∨ t' = ".xhtml".toList ∨ Has tb d' t') := by
  obtain ⟨b, hb⟩ := make_ok he hp root hp.root_mem ".epub".toList (by decide)
  have hc := core_set hp hi.toCore root hp.root_mem ".epub".toList b _ (hi.sound root hp.root_mem) (hi.nodup root hp.root_mem) hb
    (.inl ⟨ht, fun _ => rfl⟩) (by decide)
  obtain ⟨tb', e1, e2, e3⟩ := ensureAll_spec he hp ".xhtml".toList (by decide) (fun d _ => .inr (.inr ⟨rfl, ht⟩)) docs _ hc
    (fun _ h => h)
  unfold addEpub
  simp only [hb, e1]
  cases hep : tools.epub with
  | false => exact .inl ⟨rfl, rfl⟩
  | true =>
    right
    have hhas : ∀ d' ∈ docs, ∀ t', Has tb' d' t' ↔
        (d' = root ∧ t' = ".epub".toList) ∨ t' = ".xhtml".toList ∨ Has tb d' t' := by
      intro d' hd' t'
      rw [e3 d' hd', Has_set hp root d' hp.root_mem hd', has_set]
      by_cases h : d' = root
      · subst h
        simp only [hd', true_and, ne_eq, not_true_eq_false, false_and, or_false, Has]
        constructor
        · rintro (h | h | h)
          · exact .inr (.inl h)
          · exact .inl h
          · exact .inr (.inr h)
        · rintro (h | h | h)
          · exact .inr (.inl h)
          · exact .inl h
          · exact .inr (.inr h)
      · simp [h, hd']
    refine ⟨rfl, _, rfl, ⟨e2, ?_, ?_⟩, hhas⟩
    · intro d' hd' hx
      rw [hhas _ hd'] at hx ⊢
      rcases hx with ⟨-, h⟩ | h | h
      · exact absurd h (by decide)
      · exact absurd h (by decide)
      · exact ⟨.inr (.inr (hi.tex d' hd' h).1), (hi.tex d' hd' h).2⟩
    · intro _
      refine ⟨fun d' hd' => ?_, hep⟩
      rw [hhas _ hd']
      exact .inr (.inl rfl)

/-- What a target keeps from being built. -/
def Bad (tools : Tools) (root d : Doc) (t : Str) : Prop :=
  t ∉ known ∨ (t = ".pdf".toList ∧ tools.pdf = false) ∨ (t = ".epub".toList ∧ d = root ∧ tools.epub = false)

theorem addTarget_spec (he : EnvOk env) (hp : Project root docs) (hi : Inv tools env root docs tb) (d : Doc) (hd : d ∈ docs)
    (t : Str) (ht : t ∈ d.targets) :
    (Bad tools root d t ∧ addTarget tools env root docs d t tb = .error .build) ∨
    (¬ Bad tools root d t ∧ ∃ tb', addTarget tools env root docs d t tb = .ok tb' ∧ Inv tools env root docs tb' ∧
      (∀ d' ∈ docs, ∀ t', Has tb d' t' → Has tb' d' t') ∧ ((t = ".epub".toList → d = root) → Has tb' d t)) := by
  unfold addTarget
  simp only [dot_of t (hp.dots d hd t ht)]
  by_cases hh : (buildersOf tb d).has t = true
  · rw [if_pos hh]
    right
    refine ⟨?_, tb, rfl, hi, fun _ _ _ h => h, fun _ => hh⟩
    rintro (h | ⟨h1, h2⟩ | ⟨h1, h2, h3⟩)
    · obtain ⟨b, hb⟩ := Option.isSome_iff_exists.1 hh
      exact h (hi.sound d hd t b hb).2.2
    · subst h1; simpa [h2] using (hi.tex d hd hh).2
    · subst h1; subst h2; simpa [h3] using (hi.xhtml hh).2
  rw [if_neg hh]
  by_cases hk : ¬ t ∈ known
  · rw [if_neg hk]; exact .inl ⟨.inl hk, rfl⟩
  rw [Decidable.not_not] at hk
  rw [if_pos hk]
  by_cases h1 : t = ".epub".toList
  · subst h1
    rw [if_pos rfl]
    by_cases h2 : d = root
    · subst h2
      rw [if_pos rfl]
      rcases addEpub_spec he hp hi ht with ⟨h, h'⟩ | ⟨h, tb', h3, h4, h5⟩
      · exact .inl ⟨.inr (.inr ⟨rfl, rfl, h⟩), h'⟩
      · refine .inr ⟨?_, tb', h3, h4, ?_, ?_⟩
        · rintro (h | ⟨h1, h2⟩ | ⟨-, -, h3⟩)
          · exact h hk
          · exact absurd h1 (by decide)
          · simp [h] at h3
        · intro d' hd' t' hx
          rw [h5 d' hd']; exact .inr (.inr hx)
        · intro _
          rw [h5 d hd]; exact .inl ⟨rfl, rfl⟩
    · rw [if_neg h2]
      refine .inr ⟨?_, tb, rfl, hi, fun _ _ _ h => h, fun h => absurd (h rfl) h2⟩
      rintro (h | ⟨h1, -⟩ | ⟨-, h, -⟩)
      · exact h hk
      · exact absurd h1 (by decide)
      · exact h2 h
  rw [if_neg h1]
  by_cases h2 : t = ".pdf".toList
  · subst h2
    rw [if_pos rfl]
    rcases addPdf_spec he hp hi d hd ht with ⟨h, h'⟩ | ⟨h, tb', h3, h4, h5⟩
    · exact .inl ⟨.inr (.inl ⟨rfl, h⟩), h'⟩
    · refine .inr ⟨?_, tb', h3, h4, ?_, ?_⟩
      · rintro (h' | ⟨-, h2⟩ | ⟨h3, -⟩)
        · exact h' hk
        · simp [h] at h2
        · exact h1 h3
      · intro d' hd' t' hx
        rw [h5 d' hd']; exact .inr hx
      · intro _
        rw [h5 d hd]; exact .inl ⟨rfl, .inl rfl⟩
  rw [if_neg h2]
  obtain ⟨bs, e1, e2, e3, e4, e5⟩ := ensure_ok he hp hi.toCore d hd t (.inl ⟨ht, fun h => absurd h h1⟩) hk
  simp only [e1]
  have hhas : ∀ d' ∈ docs, ∀ t', Has (tb.set d.src bs) d' t' ↔ (d' = d ∧ t' = t) ∨ Has tb d' t' := by
    intro d' hd' t'
    rw [Has_set hp d d' hd hd', e3]
    by_cases h : d' = d
    · subst h; simp
    · simp [h]
  refine .inr ⟨?_, _, rfl, ⟨e2, ?_, ?_⟩, ?_, ?_⟩
  · rintro (h' | ⟨h3, -⟩ | ⟨h3, -⟩)
    · exact h' hk
    · exact h2 h3
    · exact h1 h3
  · intro d' hd' hx
    rw [hhas _ hd'] at hx ⊢
    rcases hx with ⟨-, h⟩ | h
    · exact absurd h.symm h2
    · exact ⟨.inr (hi.tex d' hd' h).1, (hi.tex d' hd' h).2⟩
  · intro hx
    rw [hhas _ hp.root_mem] at hx
    rcases hx with ⟨-, h⟩ | h
    · exact absurd h.symm h1
    · refine ⟨fun d' hd' => ?_, (hi.xhtml h).2⟩
      rw [hhas _ hd']; exact .inr ((hi.xhtml h).1 d' hd')
  · intro d' hd' t' hx
    rw [hhas _ hd']; exact .inr hx
  · intro _
    rw [hhas _ hd]; exact .inl ⟨rfl, rfl⟩

theorem addTargets_spec (he : EnvOk env) (hp : Project root docs) (d : Doc) (hd : d ∈ docs) :
    ∀ (ts : List Str) (tb : Table), Inv tools env root docs tb → ts ⊆ d.targets →
    ((∃ t ∈ ts, Bad tools root d t) ∧ addTargets tools env root docs d ts tb = .error .build) ∨
    ((¬ ∃ t ∈ ts, Bad tools root d t) ∧ ∃ tb', addTargets tools env root docs d ts tb = .ok tb' ∧ Inv tools env root docs tb' ∧
      (∀ d' ∈ docs, ∀ t', Has tb d' t' → Has tb' d' t') ∧ ∀ t ∈ ts, (t = ".epub".toList → d = root) → Has tb' d t) := by
  intro ts
  induction ts with
  | nil => intro tb hi _; exact .inr ⟨by simp, tb, rfl, hi, fun _ _ _ h => h, by simp⟩
  | cons t ts ih =>
    intro tb hi hs
    rcases addTarget_spec he hp hi d hd t (hs (by simp)) with ⟨h1, h2⟩ | ⟨h1, tb1, h2, h3, h4, h5⟩
    · exact .inl ⟨⟨t, by simp, h1⟩, by simp [addTargets, h2]⟩
    · rcases ih tb1 h3 (fun x hx => hs (by simp [hx])) with ⟨⟨t', e1, e2⟩, e3⟩ | ⟨e1, tb', e2, e3, e4, e5⟩
      · exact .inl ⟨⟨t', by simp [e1], e2⟩, by simp only [addTargets, h2]; exact e3⟩
      · refine .inr ⟨?_, tb', by simp only [addTargets, h2]; exact e2, e3, fun d' hd' t' h => e4 _ hd' _ (h4 _ hd' _ h), ?_⟩
        · rintro ⟨t', m, hb⟩
          rcases List.mem_cons.1 m with rfl | m
          · exact h1 hb
          · exact e1 ⟨t', m, hb⟩
        · intro t' m hx
          rcases List.mem_cons.1 m with rfl | m
          · exact e4 _ hd _ (h5 hx)
          · exact e5 t' m hx

theorem addDocs_spec (he : EnvOk env) (hp : Project root docs) :
    ∀ (ds : List Doc) (tb : Table), Inv tools env root docs tb → ds ⊆ docs →
    ((∃ d ∈ ds, ∃ t ∈ d.targets, Bad tools root d t) ∧ addDocs tools env root docs ds tb = .error .build) ∨
    ((¬ ∃ d ∈ ds, ∃ t ∈ d.targets, Bad tools root d t) ∧ ∃ tb', addDocs tools env root docs ds tb = .ok tb' ∧
      Inv tools env root docs tb' ∧ (∀ d' ∈ docs, ∀ t', Has tb d' t' → Has tb' d' t') ∧
      ∀ d ∈ ds, ∀ t ∈ d.targets, (t = ".epub".toList → d = root) → Has tb' d t) := by
  intro ds
  induction ds with
  | nil => intro tb hi _; exact .inr ⟨by simp, tb, rfl, hi, fun _ _ _ h => h, by simp⟩
  | cons d ds ih =>
    intro tb hi hs
    have hd : d ∈ docs := hs (by simp)
    rcases addTargets_spec he hp d hd d.targets tb hi (fun _ h => h) with ⟨h1, h2⟩ | ⟨h1, tb1, h2, h3, h4, h5⟩
    · exact .inl ⟨⟨d, by simp, h1⟩, by simp [addDocs, h2]⟩
    · rcases ih tb1 h3 (fun x hx => hs (by simp [hx])) with ⟨⟨d', e1, e2⟩, e3⟩ | ⟨e1, tb', e2, e3, e4, e5⟩
      · exact .inl ⟨⟨d', by simp [e1], e2⟩, by simp only [addDocs, h2]; exact e3⟩
      · refine .inr ⟨?_, tb', by simp only [addDocs, h2]; exact e2, e3, fun d' hd' t' h => e4 _ hd' _ (h4 _ hd' _ h), ?_⟩
        · rintro ⟨d', m, hb⟩
          rcases List.mem_cons.1 m with rfl | m
          · exact h1 hb
          · exact e1 ⟨d', m, hb⟩
        · intro d' m t' m' hx
          rcases List.mem_cons.1 m with rfl | m
          · exact e4 _ hd _ (h5 t' m' hx)
          · exact e5 d' m t' m' hx

theorem inv_nil : Inv tools env root docs [] where
  sound := by intro d _ t b h; simp [buildersOf, Dict.get?] at h
  nodup := by intro d _; simp [buildersOf, Dict.get?]
  tex := by intro d _ h; simp [Has, buildersOf, Dict.get?, Dict.has] at h
  xhtml := by intro h; simp [Has, buildersOf, Dict.get?, Dict.has] at h

theorem bad_iff (hp : Project root docs) : (∃ d ∈ docs, ∃ t ∈ d.targets, Bad tools root d t) ↔ Impossible tools root docs := by
  constructor
  · rintro ⟨d, hd, t, ht, h | ⟨h1, h2⟩ | ⟨h1, h2, h3⟩⟩
    · exact .inl ⟨d, hd, t, ht, h⟩
    · subst h1; exact .inr (.inl ⟨⟨d, hd, ht⟩, h2⟩)
    · subst h1; subst h2; exact .inr (.inr ⟨ht, h3⟩)
  · rintro (⟨d, hd, t, ht, h⟩ | ⟨⟨d, hd, ht⟩, h⟩ | ⟨ht, h⟩)
    · exact ⟨d, hd, t, ht, .inl h⟩
    · exact ⟨d, hd, _, ht, .inr (.inl ⟨rfl, h⟩)⟩
    · exact ⟨root, hp.root_mem, _, ht, .inr (.inr ⟨rfl, rfl, h⟩)⟩

end

end Verif.Targets
