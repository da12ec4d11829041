import Verif.Lemmas.Assembly
import Verif.Props.Cli

/-!
# C81: all targets of a project are up to date

The theorems are about `Kit.build`, the build of the builders that are made for the documents of a project, for any documents with any
targets but epub, any contents, tools and histories.
-/

namespace Verif.Build

open Verif Verif.Decider Verif.Paths
open Verif.Targets (Doc Tools EnvOk At Wanted place buildersOf addTargetBuilders)

namespace Kit

variable {K : Kit} {U : Scope} {tools : Tools} {env : Paths.Env} {root : Doc} {subs : List Doc}

/-! ### The files of targets -/

theorem Of.get (hK : K.Of tools env root subs) {d : Doc} (hd : d ∈ root :: subs) {dir : Path} {stem : Str} (ha : At d dir stem) {t : Str}
    {b : Targets.Builder} : (buildersOf K.table d).get? t = some b ↔
      Wanted root d t ∧ b = ⟨t, decide (t ∉ d.targets), place env d dir stem t⟩ :=
  Targets.get_iff hK.usual hK.project hK.table d hd dir stem ha t b

theorem Of.known (hK : K.Of tools env root subs) {d : Doc} (hd : d ∈ root :: subs) {t : Str} {b : Targets.Builder}
    (h : (buildersOf K.table d).get? t = some b) : t ∈ Targets.known :=
  ((Targets.added hK.usual hK.project hK.table).1.sound d hd t b h).2.2

theorem Of.tables (hK : K.Of tools env root subs) : K.Table where
  tex d hd b hb := by
    rw [hK.docs] at hd
    obtain ⟨dir, stem, ha⟩ := hK.project.at_ d hd
    rcases ((hK.get hd ha).1 hb).1 with ⟨h, _⟩ | ⟨h, _⟩ | ⟨h, _⟩
    · exact ⟨_, (hK.get hd ha).2 ⟨.inr (.inl ⟨rfl, h⟩), rfl⟩⟩
    · exact absurd h (by decide)
    · exact absurd h (by decide)
  has d hd eb he := by
    rw [hK.docs] at hd
    exact Dict.get?_of_mem _ ((Targets.added hK.usual hK.project hK.table).1.nodup d hd) eb.1 eb.2 he

theorem place_good (he : EnvOk env) {d : Doc} {dir : Path} {stem t : Str} (ha : At d dir stem) (ht : t ∈ Targets.known) :
    Paths.Good (place env d dir stem t).full := by
  obtain ⟨m, rfl, h1, -, -, h4, -⟩ := Targets.known_shape t ht
  obtain ⟨n, e, -, hn, hs⟩ := ha.split
  have hst : stem ≠ [] ∧ '/' ∉ stem := by
    rcases hs with ⟨h, h', _⟩ | ⟨h, h', _⟩
    · refine ⟨h', fun hc => hn.2.2 ?_⟩
      rw [h]; exact List.mem_append.2 (.inl hc)
    · exact ⟨h', fun hc => hn.2.2 (h ▸ hc)⟩
  have hname : IsName (stem ++ '.' :: m) := by
    refine ⟨by simp, fun h => ?_, fun h => ?_⟩
    · have h := congrArg List.length h
      simp only [List.length_append, List.length_cons, List.length_nil] at h
      have : stem.length ≠ 0 := fun h => hst.1 (List.length_eq_zero_iff.1 h)
      omega
    · rcases List.mem_append.1 h with h | h
      · exact hst.2 h
      · exact h4 h
  refine good_div _ _ (good_div _ _ ?_ ?_) (good_child _ _ ha.good hname)
  · show Paths.Good (if _ then _ else _)
    split
    · exact he.root
    · exact he.cache
  · intro c hc
    rw [List.mem_singleton.1 hc]
    exact h1

/-- Different targets have different files. -/
theorem Of.same (hK : K.Of tools env root subs) {d d' : Doc} (hd : d ∈ K.docs) (hd' : d' ∈ K.docs) {t t' : Str} {b b' : Targets.Builder}
    (hb : (buildersOf K.table d).get? t = some b) (hb' : (buildersOf K.table d').get? t' = some b')
    (h : toStr b.out.full = toStr b'.out.full) : d = d' ∧ t = t' ∧ b = b' := by
  rw [hK.docs] at hd hd'
  obtain ⟨dir, stem, ha⟩ := hK.project.at_ d hd
  obtain ⟨dir', stem', ha'⟩ := hK.project.at_ d' hd'
  have k := hK.known hd hb
  have k' := hK.known hd' hb'
  obtain ⟨w, e⟩ := (hK.get hd ha).1 hb
  obtain ⟨w', e'⟩ := (hK.get hd' ha').1 hb'
  have hf : (place env d dir stem t).full = (place env d' dir' stem' t').full := by
    rw [← parse_toStr _ (place_good hK.usual ha k), ← parse_toStr _ (place_good hK.usual ha' k')]
    rw [e, e'] at h
    exact congrArg parse h
  have dot : ∀ t ∈ Targets.known, dotted t = t := by decide
  obtain ⟨h1, h2, h3⟩ := Targets.C56_no_clash hK.usual hK.cache hK.project hK.table d d' hd hd' dir dir' stem stem' ha ha' t t' _ _
    ((Targets.C56_target_filepath hK.usual hK.project hK.table d hd dir stem ha t _).2 ⟨by rw [dot t k]; exact w, rfl⟩)
    ((Targets.C56_target_filepath hK.usual hK.project hK.table d' hd' dir' stem' ha' t' _).2 ⟨by rw [dot t' k']; exact w', rfl⟩)
    (by rw [dot t k, dot t' k']; exact hf)
  rw [dot t k, dot t' k'] at h1
  subst h1 h2 h3
  have hdd := hK.stems d hd d' hd' dir stem ha ha'
  subst hdd
  rw [hb] at hb'
  exact ⟨rfl, rfl, Option.some.inj hb'⟩

/-! ### The build can begin -/

theorem sound (hK : K.Of tools env root subs) (hP : K.Proper U) : Sound K.project U where
  known i s h := hP.known s (makes hK.tables h)
  closed i s fs bs h := hP.closed s fs bs (makes hK.tables h)
  faithful := hP.faithful
  groups n g h hpar s fs fs' k hs hf hf' hk := by
    obtain ⟨x, hx, hg⟩ := node_at h
    have hv := (mem_keys hK.tables).1 (mem_of_at hx)
    cases x with
    | root => cases hg; cases hpar
    | deps => cases hg; cases hpar
    | target d t =>
      obtain ⟨o, -, hg⟩ := Option.map_eq_some_iff.1 hg
      cases hg
      exact hP.groups d hv.1 t s fs fs' k hs hf hf' hk
    | page | copy | image | converter | final =>
      obtain ⟨o, -, hg⟩ := Option.map_eq_some_iff.1 hg
      cases hg
  decided n g h hpar := by
    obtain ⟨x, hx, hg⟩ := node_at h
    have hv := (mem_keys hK.tables).1 (mem_of_at hx)
    cases x with
    | root => cases hg; cases hpar
    | deps => cases hg; cases hpar
    | target d t =>
      obtain ⟨o, -, hg⟩ := Option.map_eq_some_iff.1 hg
      cases hg
      nofun
    | page | copy | image | converter | final =>
      obtain ⟨o, -, hg⟩ := Option.map_eq_some_iff.1 hg
      cases hg
  other i s h hp := by
    have hm := makes hK.tables h
    rcases hm with hm | ⟨d, hd, hm | ⟨t, hm⟩⟩ | ⟨d, hd, hm⟩
    · exact hP.sources s s hm (.inl hm) hp
    · obtain ⟨b, hb⟩ := hm.1
      obtain ⟨b', hb', hs⟩ := hm.2
      have hp : s.out = toStr b'.out.full := by
        rw [hs] at hp ⊢
        have := List.mem_singleton.1 hp
        injection this
      have := hP.apart s ⟨K.parameters d ".tex".toList, K.enc "render".toList, toStr b'.out.full, K.render d ".tex".toList, true⟩
        ⟨d, hd, .inl hm⟩ (.inl ⟨d, hd, ".tex".toList, .inl ⟨by decide, b', hb', rfl⟩⟩) hp
      rw [hs] at this
      injection this with _ _ _ _ h
      cases h
    · have hf : K.IsFirst s := ⟨d, hd, t, .inr hm⟩
      exact hP.sources s s hf (.inl hf) hp
    · obtain ⟨b, hb, hs⟩ := hm
      obtain ⟨b', hb'⟩ := hK.tables.tex d hd b hb
      have hp : s.out = K.compiled d := by
        rw [hs] at hp ⊢
        have := List.mem_singleton.1 hp
        injection this
      have := hP.apart ⟨[.path (toStr b'.out.full)], K.enc K.latex, K.compiled d, K.compile, false⟩ s
        ⟨d, hd, .inl ⟨⟨b, hb⟩, b', hb', rfl⟩⟩ (.inr (.inr ⟨d, hd, b, hb, hs⟩)) hp.symm
      rw [hs] at this
      injection this with _ _ _ _ h
      cases h
  twins i j s t hi hj he := by
    have hs := makes hK.tables hi
    have ht := makes hK.tables hj
    have side : ∀ s, K.Makes s → K.IsSide s ∨ ∃ d ∈ K.docs, ∃ t b, (buildersOf K.table d).get? t = some b ∧ s.out = toStr b.out.full ∧
        ((t ≠ ".pdf".toList ∧ s = ⟨K.parameters d t, K.enc "render".toList, toStr b.out.full, K.render d t, true⟩) ∨
          (t = ".pdf".toList ∧ s = ⟨[.path (K.compiled d)], K.enc "copy".toList, toStr b.out.full, fun bs => bs.headD [], true⟩)) := by
      rintro s (⟨d, hd, t, ⟨ht, b, hb, rfl⟩ | h | h⟩ | h | ⟨d, hd, b, hb, rfl⟩)
      · exact .inr ⟨d, hd, t, b, hb, rfl, .inl ⟨ht, rfl⟩⟩
      · exact .inl ⟨d, hd, .inr ⟨t, .inl h⟩⟩
      · exact .inl ⟨d, hd, .inr ⟨t, .inr h⟩⟩
      · exact .inl h
      · exact .inr ⟨d, hd, _, b, hb, rfl, .inr ⟨rfl, rfl⟩⟩
    rcases side s hs with h | ⟨d, hd, x, b, hb, ho, h⟩
    · exact hP.apart s t h ht he
    · rcases side t ht with h' | ⟨d', hd', x', b', hb', ho', h'⟩
      · exact (hP.apart t s h' hs he.symm).symm
      · obtain ⟨rfl, rfl, rfl⟩ := hK.same hd hd' hb hb' (ho.symm.trans (he.trans ho'))
        rcases h with ⟨hx, rfl⟩ | ⟨hx, rfl⟩ <;> rcases h' with ⟨hx', rfl⟩ | ⟨hx', rfl⟩
        · rfl
        · exact absurd hx' hx
        · exact absurd hx hx'
        · rfl

theorem begins (hK : K.Of tools env root subs) (hP : K.Proper U) {fs : FS} {db : Dict Bytes Bytes} (hf : U.files fs) {S : Nat → Prop}
    (hS : UpToDate K.project (K.made fs db) S) : BeginsAdds K.project U K.adds (K.number .root) (K.made fs db) S := by
  refine ⟨fits hK.tables hP, fun runs => ?_⟩
  refine ⟨sound hK hP, hf, fun i => ⟨rfl, rfl⟩, guarded_root hK.tables hP runs _, hS, ?_⟩
  intro n g hg hc hpar
  obtain ⟨x, hx, hxg⟩ := node_at hg
  cases x with
  | root => cases hxg; cases hpar
  | deps => cases hxg; cases hpar
  | target d t =>
    obtain ⟨o, -, hxg⟩ := Option.map_eq_some_iff.1 hxg
    cases hxg
    cases hc
  | page | copy | image | converter | final =>
    obtain ⟨o, -, hxg⟩ := Option.map_eq_some_iff.1 hxg
    cases hxg

theorem begins_none (hK : K.Of tools env root subs) (hP : K.Proper U) {fs : FS} {db : Dict Bytes Bytes} (hf : U.files fs) :
    BeginsAdds K.project U K.adds (K.number .root) (K.made fs db) (fun _ => False) := begins hK hP hf fun _ h => h.elim

/-! ### Theorems -/

/-- **C81.** Builds of the project are among those after which the files and the database are as `PastAdds` says. -/
theorem C81_past (hK : K.Of tools env root subs) (hP : K.Proper U) {fs : FS} {db : Dict Bytes Bytes} (hp : PastAdds K.cfg U fs db)
    (depth rounds : Nat) : PastAdds K.cfg U (K.build depth rounds fs db).2.fs (K.build depth rounds fs db).2.db :=
  .build K.project K.adds depth (K.number .root) rounds (K.made fs db) _ rfl (begins_none hK hP hp.files) hp

theorem contents_kept {fs fs' : FS} {l : List Item} (h : ∀ p, Item.path p ∈ l → fs' p = fs p) {bs : List Bytes} (hc : Contents fs' l bs) :
    Contents fs l bs := by
  unfold Contents at *
  rw [← hc]
  refine List.map_congr_left fun x hx => ?_
  cases x with
  | path p => exact (h p hx).symm
  | other b => rfl

/-- The digests of a step are the same if its files are. -/
theorem digests_same {fs fs' : FS} {s : Step} (h : ∀ p, (Item.path p ∈ s.parameters ∨ p = s.out) → fs' p = fs p) {x o : Bytes}
    (hd : Digests K.cfg fs s x o) : Digests K.cfg fs' s x o := by
  refine ⟨?_, ?_⟩
  · rw [hashItems_congr K.cfg (fs' := fs) fun p hp => h p (.inl ?_)]
    · exact hd.1
    · rcases List.mem_append.1 hp with hp | hp
      · exact hp
      · exact absurd (List.mem_singleton.1 hp) (by nofun)
  · rw [hashItems_congr K.cfg (fs' := fs) fun p hp => h p (.inr ?_)]
    · exact hd.2
    · have := List.mem_singleton.1 hp
      injection this

section
variable (hK : K.Of tools env root subs) (hP : K.Proper U)
include hK hP

omit hP in
/-- The targets are part of the root builder. -/
theorem part_root {B : Nat → List Nat} (hB : ∀ n m, m ∈ K.subs n → m ∈ B n) {d : Doc} {t : Str} (h : K.Has d t) {i : Nat}
    (hi : Part K.project B (K.number (.target d t)) i) : Part K.project B (K.number .root) i := by
  have hv : K.Valid .root := trivial
  have hm := (mem_keys hK.tables).2 hv
  obtain ⟨g, hg, _⟩ := node_group hv
  refine .group _ _ _ g ((node_number hm).trans hg) (hB _ _ ?_) hi
  rw [subs_number hm]
  obtain ⟨hd, b, hb⟩ := h
  exact List.mem_map.2 ⟨.target d t, List.mem_flatMap.2 ⟨d, hd, List.mem_map.2 ⟨(t, b), mem_of_get hb, rfl⟩⟩, rfl⟩

omit hP in
theorem part_below {B : Nat → List Nat} (hB : ∀ n m, m ∈ K.subs n → m ∈ B n) {d : Doc} {t : Str} (h : K.Has d t) {k : Key} {s : Step}
    (hk : K.Valid k) (hkb : k ∈ K.below (.target d t)) (hs : K.nodeOf k = some (.step s)) : Part K.project B (K.number .root) (K.number k) := by
  refine part_root hK hB h ?_
  have hv : K.Valid (.target d t) := h
  have hm := (mem_keys hK.tables).2 hv
  obtain ⟨g, hg, _⟩ := node_group hv
  refine .group _ _ _ g ((node_number hm).trans hg) (hB _ _ ?_) (.step _ s ((node_number ((mem_keys hK.tables).2 hk)).trans hs))
  rw [subs_number hm]
  exact List.mem_map.2 ⟨k, hkb, rfl⟩

/-- The steps of targets, and the copies. -/
theorem current {fs : FS} {db : Dict Bytes Bytes} (hp : PastAdds K.cfg U fs db) {depth rounds : Nat}
    (hd : (K.build depth rounds fs db).1 = some (.ok .done)) {k : Key} (hk : K.Valid k) {s : Step} (hs : K.nodeOf k = some (.step s))
    (hi : Part K.project (grown K.subs K.adds (K.build depth rounds fs db).2.runs) (K.number .root) (K.number k)) :
    Current (K.build depth rounds fs db).2.fs s ∧ ∃ x o, Digests K.cfg (K.build depth rounds fs db).2.fs s x o ∧
      (K.build depth rounds fs db).2.db.get? x = some o :=
  C79_current (P := K.project) (w := K.made fs db) hp (begins_none hK hP hp.files) depth rounds hd (K.number k) s hi
    ((node_number ((mem_keys hK.tables).2 hk)).trans hs)

/-- The files of the author are not changed. -/
theorem kept (fs : FS) (db : Dict Bytes Bytes) (depth rounds : Nat) {s : Step} (hs : K.IsFirst s) {p : Str} (hp : Item.path p ∈ s.parameters) :
    (K.build depth rounds fs db).2.fs p = fs p := by
  refine C79_sources K.project K.adds depth (K.number .root) rounds (K.made fs db) p ?_
  rintro ⟨j, t, -, hj, rfl⟩
  exact hP.sources s t hs (makes hK.tables hj) hp

/-- **C81.** If a build reports 'done', the file of each target of each document, also of those that are needed for others, is what the
renderer makes from the files of the author, as they were before the build, whatever was built or edited before. -/
theorem C81_page {fs : FS} {db : Dict Bytes Bytes} (hp : PastAdds K.cfg U fs db) (depth rounds : Nat)
    (hdone : (K.build depth rounds fs db).1 = some (.ok .done)) (d : Doc) (hd : d ∈ root :: subs) (dir : Path) (stem : Str)
    (ha : At d dir stem) (t : Str) (ht : t ≠ ".pdf".toList) (hw : Wanted root d t) :
    ∃ bs, Contents fs (K.parameters d t) bs ∧
      (K.build depth rounds fs db).2.fs (toStr (place env d dir stem t).full) = some (K.render d t bs) := by
  have hb := (hK.get hd ha).2 ⟨hw, rfl⟩
  have hhas : K.Has d t := ⟨by rw [hK.docs]; exact hd, _, hb⟩
  have hv : K.Valid (.page d t) := ⟨ht, hhas⟩
  have hs : K.nodeOf (.page d t) = some (.step (K.pageStep d t (toStr (place env d dir stem t).full))) := by
    show (K.out d t).map _ = _
    unfold out; rw [hb]; rfl
  obtain ⟨⟨bs, h1, h2⟩, _⟩ := current hK hP hp hdone hv hs
    (part_below hK (fun n m h => grown_sub _ n m h) hhas hv (by rw [below_target d ht]; simp) hs)
  exact ⟨bs, contents_kept (fun p hp => kept hK hP fs db depth rounds (isFirst hK.tables hv trivial hs) hp) h1, h2⟩

/-- **C81.** … and the pdf of each document is what the compiler makes from its tex file of the same sources. -/
theorem C81_pdf {fs : FS} {db : Dict Bytes Bytes} (hp : PastAdds K.cfg U fs db) (depth rounds : Nat)
    (hdone : (K.build depth rounds fs db).1 = some (.ok .done)) (d : Doc) (hd : d ∈ root :: subs) (dir : Path) (stem : Str)
    (ha : At d dir stem) (hw : ".pdf".toList ∈ d.targets) :
    ∃ bs, Contents fs (K.parameters d ".tex".toList) bs ∧
      (K.build depth rounds fs db).2.fs (toStr (place env d dir stem ".pdf".toList).full) =
        some (K.compile [K.render d ".tex".toList bs]) := by
  have hwp : Wanted root d ".pdf".toList := .inl ⟨hw, fun h => absurd h (by decide)⟩
  have hwt : Wanted root d ".tex".toList := .inr (.inl ⟨rfl, hw⟩)
  have hb := (hK.get hd ha).2 ⟨hwp, rfl⟩
  have hb' := (hK.get hd ha).2 ⟨hwt, rfl⟩
  obtain ⟨bs, h1, h2⟩ := C81_page hK hP hp depth rounds hdone d hd dir stem ha ".tex".toList (by decide) hwt
  have hhas : K.Has d ".pdf".toList := ⟨by rw [hK.docs]; exact hd, _, hb⟩
  have hvc : K.Valid (.converter d) := hhas
  have hvf : K.Valid (.final d) := hhas
  have hsc : K.nodeOf (.converter d) = some (.step (K.converterStep d (toStr (place env d dir stem ".tex".toList).full))) := by
    show (K.out d _).map _ = _
    unfold out; rw [hb']; rfl
  have hsf : K.nodeOf (.final d) = some (.step (K.copyStep (K.compiled d) (toStr (place env d dir stem ".pdf".toList).full))) := by
    show (K.out d _).map _ = _
    unfold out; rw [hb]; rfl
  obtain ⟨⟨cs, c1, c2⟩, _⟩ := current hK hP hp hdone hvc hsc
    (part_below hK (fun n m h => grown_sub _ n m h) hhas hvc (by rw [below_pdf]; simp) hsc)
  obtain ⟨⟨ds, d1, d2⟩, _⟩ := current hK hP hp hdone hvf hsf
    (part_below hK (fun n m h => grown_sub _ n m h) hhas hvf (by rw [below_pdf]; simp) hsf)
  have hc : cs = [K.render d ".tex".toList bs] := by
    have c1 : [(K.build depth rounds fs db).2.fs (toStr (place env d dir stem ".tex".toList).full)] = cs.map some := c1
    rw [h2] at c1
    rcases cs with _ | ⟨x, _ | ⟨y, l⟩⟩
    · cases c1
    · injection c1 with c1 _
      injection c1 with c1
      rw [c1]
    · cases c1
  have hds : ds = [K.compile cs] := by
    have d1 : [(K.build depth rounds fs db).2.fs (K.compiled d)] = ds.map some := d1
    have c2 : (K.build depth rounds fs db).2.fs (K.compiled d) = some (K.compile cs) := c2
    rw [c2] at d1
    rcases ds with _ | ⟨x, _ | ⟨y, l⟩⟩
    · cases d1
    · injection d1 with d1 _
      injection d1 with d1
      rw [d1]
    · cases d1
  refine ⟨bs, h1, ?_⟩
  rw [← hc]
  have d2 : (K.build depth rounds fs db).2.fs (toStr (place env d dir stem ".pdf".toList).full) = some (ds.headD []) := d2
  rw [d2, hds]
  rfl

omit hP in
theorem part_copy {B : Nat → List Nat} (hB : ∀ n m, m ∈ K.subs n → m ∈ B n) {d : Doc} {t : Str} (ht : t ≠ ".pdf".toList) (h : K.Has d t)
    {j : Nat} (hj : j < (K.copies d t).length) {s : Step} (hs : K.nodeOf (.copy d t j) = some (.step s)) :
    Part K.project B (K.number .root) (K.number (.copy d t j)) := by
  refine part_root hK hB h ?_
  have hv : K.Valid (.target d t) := h
  have hvd : K.Valid (.deps d t) := ⟨ht, h⟩
  have hvc : K.Valid (.copy d t j) := ⟨ht, h, hj⟩
  obtain ⟨g, hg, _⟩ := node_group hv
  obtain ⟨g', hg', _⟩ := node_group hvd
  have hm := (mem_keys hK.tables).2 hv
  have hmd := (mem_keys hK.tables).2 hvd
  refine .group _ (K.number (.deps d t)) _ g ((node_number hm).trans hg) (hB _ _ ?_) ?_
  · rw [subs_number hm, below_target d ht]; simp
  · refine .group _ (K.number (.copy d t j)) _ g' ((node_number hmd).trans hg') (hB _ _ ?_)
      (.step _ s ((node_number ((mem_keys hK.tables).2 hvc)).trans hs))
    rw [subs_number hmd]
    exact List.mem_map.2 ⟨.copy d t j, List.mem_map.2 ⟨j, List.mem_range.2 hj, rfl⟩, rfl⟩

/-- **C81.** … and each file that a target needs is copied. -/
theorem C81_copy {fs : FS} {db : Dict Bytes Bytes} (hp : PastAdds K.cfg U fs db) (depth rounds : Nat)
    (hdone : (K.build depth rounds fs db).1 = some (.ok .done)) (d : Doc) (hd : d ∈ root :: subs) (t : Str) (ht : t ≠ ".pdf".toList)
    (hw : Wanted root d t) (file out : Str) (hc : (file, out) ∈ K.copies d t) :
    ∃ x, fs file = some x ∧ (K.build depth rounds fs db).2.fs out = some x := by
  obtain ⟨dir, stem, ha⟩ := hK.project.at_ d hd
  have hb := (hK.get hd ha).2 ⟨hw, rfl⟩
  have hhas : K.Has d t := ⟨by rw [hK.docs]; exact hd, _, hb⟩
  obtain ⟨j, hj, hje⟩ := List.mem_iff_getElem.1 hc
  have hv : K.Valid (.copy d t j) := ⟨ht, hhas, hj⟩
  have hs : K.nodeOf (.copy d t j) = some (.step (K.copyStep file out)) := by
    show (K.copies d t)[j]?.map _ = _
    rw [List.getElem?_eq_getElem hj, hje]; rfl
  obtain ⟨⟨bs, h1, h2⟩, _⟩ := current hK hP hp hdone hv hs (part_copy hK (fun n m h => grown_sub _ n m h) ht hhas hj hs)
  have h1 := contents_kept (fun p hp => kept hK hP fs db depth rounds (isFirst hK.tables hv trivial hs) hp) h1
  have h1 : [fs file] = bs.map some := h1
  rcases bs with _ | ⟨x, _ | ⟨y, l⟩⟩
  · injection h1
  · injection h1 with h1 _
    exact ⟨x, h1, h2⟩
  · injection h1 with _ h1
    injection h1

/-- **C81.** … and so are the images of each page that was rendered in this build. -/
theorem C81_image {fs : FS} {db : Dict Bytes Bytes} (hp : PastAdds K.cfg U fs db) (depth rounds : Nat)
    (hdone : (K.build depth rounds fs db).1 = some (.ok .done)) (d : Doc) (hd : d ∈ root :: subs) (t : Str) (ht : t ≠ ".pdf".toList)
    (hw : Wanted root d t) (hr : (K.build depth rounds fs db).2.runs (K.number (.page d t)) ≠ 0) (s : Step) (hs : s ∈ K.images d t) :
    ∃ bs, Contents fs s.parameters bs ∧ (K.build depth rounds fs db).2.fs s.out = some (s.tool bs) := by
  obtain ⟨dir, stem, ha⟩ := hK.project.at_ d hd
  have hb := (hK.get hd ha).2 ⟨hw, rfl⟩
  have hhas : K.Has d t := ⟨by rw [hK.docs]; exact hd, _, hb⟩
  obtain ⟨j, hj, hje⟩ := List.mem_iff_getElem.1 hs
  have hv : K.Valid (.image d t j) := ⟨ht, hhas, hj⟩
  have hvt : K.Valid (.target d t) := hhas
  have hvd : K.Valid (.deps d t) := ⟨ht, hhas⟩
  have hsn : K.nodeOf (.image d t j) = some (.step s) := by
    show (K.images d t)[j]?.map _ = _
    rw [List.getElem?_eq_getElem hj, hje]; rfl
  have hm := (mem_keys hK.tables).2 hvt
  have hmd := (mem_keys hK.tables).2 hvd
  obtain ⟨g, hg, _⟩ := node_group hvt
  obtain ⟨g', hg', _⟩ := node_group hvd
  have hpart : Part K.project (grown K.subs K.adds (K.build depth rounds fs db).2.runs) (K.number .root) (K.number (.image d t j)) := by
    refine part_root hK (fun n m h => grown_sub _ n m h) hhas ?_
    refine .group _ (K.number (.deps d t)) _ g ((node_number hm).trans hg) (grown_sub _ _ _ ?_) ?_
    · rw [subs_number hm, below_target d ht]; simp
    · refine .group _ (K.number (.image d t j)) _ g' ((node_number hmd).trans hg') ?_
        (.step _ s ((node_number ((mem_keys hK.tables).2 hv)).trans hsn))
      unfold grown
      rw [adds_number hmd]
      simp only
      rw [if_neg hr]
      refine List.mem_append.2 (.inr (List.mem_map.2 ⟨.image d t j, List.mem_map.2 ⟨j, List.mem_range.2 hj, rfl⟩, rfl⟩))
  obtain ⟨⟨bs, h1, h2⟩, _⟩ := current hK hP hp hdone hv hsn hpart
  exact ⟨bs, contents_kept (fun p hp => kept hK hP fs db depth rounds (isFirst hK.tables hv trivial hsn) hp) h1, h2⟩

/-! ### Builds again -/

/-- **C81.** After a build that reports 'done', the page of a target is not rendered again by the next build, unless the file of the
target or one of those it is made from was edited, whatever else was. -/
theorem C81_page_again {fs : FS} {db : Dict Bytes Bytes} (hp : PastAdds K.cfg U fs db) (depth rounds : Nat)
    (hdone : (K.build depth rounds fs db).1 = some (.ok .done)) (fs' : FS) (hf' : U.files fs') (d : Doc) (hd : d ∈ root :: subs)
    (dir : Path) (stem : Str) (ha : At d dir stem) (t : Str) (ht : t ≠ ".pdf".toList) (hw : Wanted root d t)
    (hsame : ∀ p, (Item.path p ∈ K.parameters d t ∨ p = toStr (place env d dir stem t).full) → fs' p = (K.build depth rounds fs db).2.fs p)
    (depth' rounds' : Nat) : (K.build depth' rounds' fs' (K.build depth rounds fs db).2.db).2.runs (K.number (.page d t)) = 0 := by
  have hb := (hK.get hd ha).2 ⟨hw, rfl⟩
  have hhas : K.Has d t := ⟨by rw [hK.docs]; exact hd, _, hb⟩
  have hv : K.Valid (.page d t) := ⟨ht, hhas⟩
  have hs : K.nodeOf (.page d t) = some (.step (K.pageStep d t (toStr (place env d dir stem t).full))) := by
    show (K.out d t).map _ = _
    unfold out; rw [hb]; rfl
  obtain ⟨_, x, o, h1, h2⟩ := current hK hP hp hdone hv hs
    (part_below hK (fun n m h => grown_sub _ n m h) hhas hv (by rw [below_target d ht]; simp) hs)
  refine C79_not_needed (P := K.project) (w := K.made fs' _) (S := fun i => i = K.number (.page d t))
    (.edit _ _ _ (C81_past hK hP hp depth rounds) hf') (begins hK hP hf' ?_) depth' rounds' _ rfl
  rintro i rfl
  refine ⟨_, x, o, (node_number ((mem_keys hK.tables).2 hv)).trans hs, digests_same hsame h1, h2, ?_⟩
  rintro p hp ⟨j, s, -, hj, rfl⟩
  exact absurd hp (hP.sources _ s (isFirst hK.tables hv trivial hs) (makes hK.tables hj))

/-- **C81.** … and neither is a pdf compiled again, unless its files or those that the tex file is made from were edited. -/
theorem C81_pdf_again {fs : FS} {db : Dict Bytes Bytes} (hp : PastAdds K.cfg U fs db) (depth rounds : Nat)
    (hdone : (K.build depth rounds fs db).1 = some (.ok .done)) (fs' : FS) (hf' : U.files fs') (d : Doc) (hd : d ∈ root :: subs)
    (dir : Path) (stem : Str) (ha : At d dir stem) (hw : ".pdf".toList ∈ d.targets)
    (hsame : ∀ p, (Item.path p ∈ K.parameters d ".tex".toList ∨ p = toStr (place env d dir stem ".tex".toList).full ∨ p = K.compiled d ∨
      p = toStr (place env d dir stem ".pdf".toList).full) → fs' p = (K.build depth rounds fs db).2.fs p)
    (depth' rounds' : Nat) :
    (K.build depth' rounds' fs' (K.build depth rounds fs db).2.db).2.runs (K.number (.converter d)) = 0 ∧
      (K.build depth' rounds' fs' (K.build depth rounds fs db).2.db).2.runs (K.number (.final d)) = 0 := by
  have hwp : Wanted root d ".pdf".toList := .inl ⟨hw, fun h => absurd h (by decide)⟩
  have hwt : Wanted root d ".tex".toList := .inr (.inl ⟨rfl, hw⟩)
  have hb := (hK.get hd ha).2 ⟨hwp, rfl⟩
  have hb' := (hK.get hd ha).2 ⟨hwt, rfl⟩
  have hhas : K.Has d ".pdf".toList := ⟨by rw [hK.docs]; exact hd, _, hb⟩
  have hhas' : K.Has d ".tex".toList := ⟨by rw [hK.docs]; exact hd, _, hb'⟩
  have hne : ".tex".toList ≠ ".pdf".toList := by decide
  have hvp : K.Valid (.page d ".tex".toList) := ⟨hne, hhas'⟩
  have hvc : K.Valid (.converter d) := hhas
  have hvf : K.Valid (.final d) := hhas
  have hsp : K.nodeOf (.page d ".tex".toList) = some (.step (K.pageStep d ".tex".toList (toStr (place env d dir stem ".tex".toList).full))) := by
    show (K.out d _).map _ = _
    unfold out; rw [hb']; rfl
  have hsc : K.nodeOf (.converter d) = some (.step (K.converterStep d (toStr (place env d dir stem ".tex".toList).full))) := by
    show (K.out d _).map _ = _
    unfold out; rw [hb']; rfl
  have hsf : K.nodeOf (.final d) = some (.step (K.copyStep (K.compiled d) (toStr (place env d dir stem ".pdf".toList).full))) := by
    show (K.out d _).map _ = _
    unfold out; rw [hb]; rfl
  obtain ⟨_, x1, o1, p1, p2⟩ := current hK hP hp hdone hvp hsp
    (part_below hK (fun n m h => grown_sub _ n m h) hhas' hvp (by rw [below_target d hne]; simp) hsp)
  obtain ⟨_, x2, o2, c1, c2⟩ := current hK hP hp hdone hvc hsc
    (part_below hK (fun n m h => grown_sub _ n m h) hhas hvc (by rw [below_pdf]; simp) hsc)
  obtain ⟨_, x3, o3, f1, f2⟩ := current hK hP hp hdone hvf hsf
    (part_below hK (fun n m h => grown_sub _ n m h) hhas hvf (by rw [below_pdf]; simp) hsf)
  have np := (node_number ((mem_keys hK.tables).2 hvp)).trans hsp
  have nc := (node_number ((mem_keys hK.tables).2 hvc)).trans hsc
  have nf := (node_number ((mem_keys hK.tables).2 hvf)).trans hsf
  have hS : UpToDate K.project (K.made fs' (K.build depth rounds fs db).2.db)
      (fun i => i = K.number (.page d ".tex".toList) ∨ i = K.number (.converter d) ∨ i = K.number (.final d)) := by
    rintro i (rfl | rfl | rfl)
    · refine ⟨_, x1, o1, np, digests_same (fun p h => hsame p ?_) p1, p2, ?_⟩
      · rcases h with h | h
        · exact .inl h
        · exact .inr (.inl h)
      · rintro p hp ⟨j, s, -, hj, rfl⟩
        exact absurd hp (hP.sources _ s (isFirst hK.tables hvp trivial hsp) (makes hK.tables hj))
    · refine ⟨_, x2, o2, nc, digests_same (fun p h => hsame p ?_) c1, c2, ?_⟩
      · rcases h with h | h
        · have := List.mem_singleton.1 h
          injection this with this
          exact .inr (.inl this)
        · exact .inr (.inr (.inl h))
      · intro p hp _
        have := List.mem_singleton.1 hp
        injection this with this
        exact ⟨_, _, .inl rfl, np, this.symm⟩
    · refine ⟨_, x3, o3, nf, digests_same (fun p h => hsame p ?_) f1, f2, ?_⟩
      · rcases h with h | h
        · have := List.mem_singleton.1 h
          injection this with this
          exact .inr (.inr (.inl this))
        · exact .inr (.inr (.inr h))
      · intro p hp _
        have := List.mem_singleton.1 hp
        injection this with this
        exact ⟨_, _, .inr (.inl rfl), nc, this.symm⟩
  have hb2 := begins hK hP hf' hS
  have hp2 := PastAdds.edit _ fs' _ (C81_past hK hP hp depth rounds) hf'
  exact ⟨C79_not_needed (P := K.project) (w := K.made fs' _) hp2 hb2 depth' rounds' _ (.inr (.inl rfl)),
    C79_not_needed (P := K.project) (w := K.made fs' _) hp2 hb2 depth' rounds' _ (.inr (.inr rfl))⟩

/-- **C81.** The command `build` can build the project: if it prints 'done' for it, then after the command the file of each target is what
the renderer makes from the files of the author, whatever else the command builds. -/
theorem C81_command {es : List Build.Env} {d : Disk} {S : Build.Env → Nat → Prop} (hsep : Separate es) (cache : Str)
    (hp : ∀ e ∈ es, e ≠ K.environment cache → Prepared U d e (S e)) (hpast : PastCli K.cfg U d.fs (d.dbs cache)) (depth rounds k : Nat)
    (he : es[k]? = some (K.environment cache)) (w : World) (hk : (buildAll depth rounds es d).1[k]? = some (.done, w))
    (x : Doc) (hx : x ∈ root :: subs) (dir : Path) (stem : Str)
    (ha : At x dir stem) (t : Str) (ht : t ≠ ".pdf".toList) (hw : Wanted root x t) :
    ∃ bs, Contents (buildAll depth rounds es d).2.2.fs (K.parameters x t) bs ∧
      (buildAll depth rounds es d).2.2.fs (toStr (place env x dir stem t).full) = some (K.render x t bs) := by
  have hv : K.Valid .root := trivial
  obtain ⟨g, hg, _⟩ := node_group hv
  have hprep : Prepared U d (K.environment cache) (fun _ => False) :=
    ⟨hpast, ⟨g, (node_number ((mem_keys hK.tables).2 hv)).trans hg⟩, begins_none hK hP (fs := d.fs) (db := d.dbs cache) hpast.files⟩
  have hb := (hK.get hx ha).2 ⟨hw, rfl⟩
  have hhas : K.Has x t := ⟨by rw [hK.docs]; exact hx, _, hb⟩
  have hvp : K.Valid (.page x t) := ⟨ht, hhas⟩
  have hs : K.nodeOf (.page x t) = some (.step (K.pageStep x t (toStr (place env x dir stem t).full))) := by
    show (K.out x t).map _ = _
    unfold out; rw [hb]; rfl
  classical
  obtain ⟨⟨bs, h1, h2⟩, _⟩ := C80_current (S := fun e => if e = K.environment cache then fun _ => False else S e) hsep
    (fun e hmem => by
      by_cases h : e = K.environment cache
      · subst h; simpa using hprep
      · simpa [h] using hp e hmem h) depth rounds k _ he w hk (K.number (.page x t)) _
    (part_below hK (fun n m h => grown_sub _ n m h) hhas hvp (by rw [below_target x ht]; simp) hs)
    ((node_number ((mem_keys hK.tables).2 hvp)).trans hs)
  exact ⟨bs, h1, h2⟩

end

end Kit

/-! ### An example: two documents -/

/-- A document with a pdf and a page, and one with a page. -/
def bookA : Doc := ⟨⟨parse "/p/src".toList, parse "a.dm".toList⟩, [".pdf".toList, ".html".toList]⟩
def bookB : Doc := ⟨⟨parse "/p/src".toList, parse "sub/b.dm".toList⟩, [".html".toList]⟩

def bookTable : Targets.Table :=
  match addTargetBuilders ⟨true, true⟩ Targets.envA bookA [bookB] with
  | .ok tb => tb
  | .error _ => []

def bookEnc (s : Str) : Bytes :=
  if s = "render".toList then [201] else if s = "copy".toList then [204] else if s = "pdflatex".toList then [202] else [205]

def plate : Step := ⟨[.path "/p/src/fig.pdf".toList], [203], "/p/html/fig.svg".toList, halve 3, false⟩

/-- Both pages use a style sheet, and that of the first document has an image. -/
def book : Kit where
  cfg := tiny
  ends _ := (List.range 30).map fun i => (i, .ended 0)
  enc := bookEnc
  docs := [bookA, bookB]
  table := bookTable
  parameters d _ := [.path (toStr d.src.full)]
  render _ _ := halve 1
  copies _ t := if t = ".html".toList then [("/p/src/style.css".toList, "/p/html/style.css".toList)] else []
  images d t := if d = bookA ∧ t = ".html".toList then [plate] else []
  latex := "pdflatex".toList
  compile := halve 2
  compiled _ := "/p/.cache/a_1.pdf".toList

theorem book_docs {d : Doc} (h : d ∈ book.docs) : d = bookA ∨ d = bookB := by
  have h : d ∈ [bookA, bookB] := h
  rcases List.mem_cons.1 h with h | h
  · exact .inl h
  · exact .inr (List.mem_singleton.1 h)

theorem bookA_at : At bookA ⟨false, []⟩ "a".toList :=
  ⟨by simp [Paths.Good], rfl, "a.dm".toList, "dm".toList, rfl, by unfold IsName; decide, .inl (by decide)⟩

theorem bookB_at : At bookB ⟨false, ["sub".toList]⟩ "b".toList :=
  ⟨by unfold Paths.Good IsName; decide, rfl, "b.dm".toList, "dm".toList, rfl, by unfold IsName; decide, .inl (by decide)⟩

theorem book_project : Targets.Project bookA [bookA, bookB] where
  root_mem := by simp
  distinct := by decide
  at_ := by
    intro d hd
    simp only [List.mem_cons, List.not_mem_nil, or_false] at hd
    rcases hd with rfl | rfl
    · exact ⟨_, _, bookA_at⟩
    · exact ⟨_, _, bookB_at⟩
  dots := by decide

theorem book_of : book.Of ⟨true, true⟩ Targets.envA bookA [bookB] where
  docs := rfl
  table := by
    have h : ¬ Targets.Impossible ⟨true, true⟩ bookA [bookA, bookB] := by
      rintro (h | ⟨-, h⟩ | ⟨-, h⟩)
      · revert h; decide
      · cases h
      · cases h
    obtain ⟨tb, htb⟩ := (Targets.C56_impossible (tools := ⟨true, true⟩) Targets.envA_ok book_project).2 h
    show _ = Except.ok bookTable
    unfold bookTable
    rw [htb]
  usual := Targets.envA_ok
  cache := by decide
  project := book_project
  noEpub := by decide
  stems := by
    intro d hd d' hd' dir stem h h'
    simp only [List.mem_cons, List.not_mem_nil, or_false] at hd hd'
    have key : ∀ dir stem, At bookA dir stem → ¬ At bookB dir stem := by
      rintro dir stem h h'
      obtain ⟨n, e, hn, _, _⟩ := h.split
      obtain ⟨n', e', hn', _, _⟩ := h'.split
      have h1 : dir.parts.length = 0 := by
        have := congrArg (fun p => p.parts.length) hn
        simp only [child, List.length_append, List.length_cons, List.length_nil] at this
        have hl : bookA.src.sub.parts.length = 1 := by decide
        omega
      have h2 : dir.parts.length = 1 := by
        have := congrArg (fun p => p.parts.length) hn'
        simp only [child, List.length_append, List.length_cons, List.length_nil] at this
        have hl : bookB.src.sub.parts.length = 2 := by decide
        omega
      omega
    rcases hd with rfl | rfl <;> rcases hd' with rfl | rfl
    · rfl
    · exact absurd h' (key _ _ h)
    · exact absurd h (key _ _ h')
    · rfl

/-- A step with one file: the number of its action says what it does. -/
def booksteps : Scope where
  step s := ∃ p a out tool inst, (a = 201 ∧ tool = halve 1 ∨ a = 202 ∧ tool = halve 2 ∨ a = 203 ∧ tool = halve 3 ∨
    a = 204 ∧ tool = fun bs => bs.headD []) ∧ s = ⟨[.path p], [a], out, tool, inst⟩
  files := small.files

def styling : Step := ⟨[.path "/p/src/style.css".toList], [204], "/p/html/style.css".toList, fun bs => bs.headD [], true⟩
def htmlA : Step := ⟨[.path "/p/src/a.dm".toList], [201], "/p/html/a.html".toList, halve 1, true⟩
def texA : Step := ⟨[.path "/p/src/a.dm".toList], [201], "/p/.cache/tex/a.tex".toList, halve 1, true⟩
def htmlB : Step := ⟨[.path "/p/src/sub/b.dm".toList], [201], "/p/html/sub/b.html".toList, halve 1, true⟩
def printing : Step := ⟨[.path "/p/.cache/tex/a.tex".toList], [202], "/p/.cache/a_1.pdf".toList, halve 2, false⟩
def pdfA : Step := ⟨[.path "/p/.cache/a_1.pdf".toList], [204], "/p/pdf/a.pdf".toList, fun bs => bs.headD [], true⟩

theorem wantedA {t : Str} (h : Wanted bookA bookA t) : t = ".pdf".toList ∨ t = ".html".toList ∨ t = ".tex".toList := by
  rcases h with ⟨h, _⟩ | ⟨h, _⟩ | ⟨_, h⟩
  · simp only [bookA, List.mem_cons, List.not_mem_nil, or_false] at h
    rcases h with h | h
    · exact .inl h
    · exact .inr (.inl h)
  · exact .inr (.inr h)
  · exact absurd h (by decide)

theorem wantedB {t : Str} (h : Wanted bookA bookB t) : t = ".html".toList := by
  rcases h with ⟨h, _⟩ | ⟨_, h⟩ | ⟨_, h⟩
  · simpa [bookB] using h
  · exact absurd h (by decide)
  · exact absurd h (by decide)

theorem getA {t : Str} {b : Targets.Builder} (h : (buildersOf book.table bookA).get? t = some b) :
    Wanted bookA bookA t ∧ b.out = place Targets.envA bookA ⟨false, []⟩ "a".toList t := by
  obtain ⟨h1, rfl⟩ := (book_of.get (d := bookA) (by simp) bookA_at).1 h
  exact ⟨h1, rfl⟩

theorem getB {t : Str} {b : Targets.Builder} (h : (buildersOf book.table bookB).get? t = some b) :
    Wanted bookA bookB t ∧ b.out = place Targets.envA bookB ⟨false, ["sub".toList]⟩ "b".toList t := by
  obtain ⟨h1, rfl⟩ := (book_of.get (d := bookB) (by simp) bookB_at).1 h
  exact ⟨h1, rfl⟩

theorem book_outs : toStr (place Targets.envA bookA ⟨false, []⟩ "a".toList ".html".toList).full = "/p/html/a.html".toList ∧
    toStr (place Targets.envA bookA ⟨false, []⟩ "a".toList ".tex".toList).full = "/p/.cache/tex/a.tex".toList ∧
    toStr (place Targets.envA bookA ⟨false, []⟩ "a".toList ".pdf".toList).full = "/p/pdf/a.pdf".toList ∧
    toStr (place Targets.envA bookB ⟨false, ["sub".toList]⟩ "b".toList ".html".toList).full = "/p/html/sub/b.html".toList := by decide +kernel

theorem book_srcs : toStr bookA.src.full = "/p/src/a.dm".toList ∧ toStr bookB.src.full = "/p/src/sub/b.dm".toList := by decide +kernel

theorem book_encs : bookEnc "render".toList = [201] ∧ bookEnc "copy".toList = [204] ∧ bookEnc "pdflatex".toList = [202] ∧
    bookEnc "sequential build".toList = [205] := by decide +kernel

theorem book_page {d : Doc} {t : Str} {s : Step} (hd : d ∈ book.docs) (h : book.IsPage d t s) : s = htmlA ∨ s = texA ∨ s = htmlB := by
  obtain ⟨ht, b, hb, hs⟩ := h
  have hs : s = ⟨[.path (toStr d.src.full)], bookEnc "render".toList, toStr b.out.full, halve 1, true⟩ := hs
  rw [book_encs.1] at hs
  rcases book_docs hd with rfl | rfl
  · obtain ⟨hw, ho⟩ := getA hb
    rw [ho, book_srcs.1] at hs
    rcases wantedA hw with rfl | rfl | rfl
    · exact absurd rfl ht
    · rw [book_outs.1] at hs; exact .inl hs
    · rw [book_outs.2.1] at hs; exact .inr (.inl hs)
  · obtain ⟨hw, ho⟩ := getB hb
    rw [ho, wantedB hw, book_srcs.2, book_outs.2.2.2] at hs
    exact .inr (.inr hs)

theorem book_copy {d : Doc} {t : Str} {s : Step} (h : book.IsCopy d t s) : s = styling := by
  obtain ⟨_, _, file, out, hc, hs⟩ := h
  have hs : s = ⟨[.path file], bookEnc "copy".toList, out, fun bs => bs.headD [], true⟩ := hs
  rw [book_encs.2.1] at hs
  have hc : (file, out) ∈ (if t = ".html".toList then [("/p/src/style.css".toList, "/p/html/style.css".toList)] else []) := hc
  split at hc
  · have := List.mem_singleton.1 hc
    injection this with h1 h2
    subst h1 h2
    exact hs
  · cases hc

theorem book_image {d : Doc} {t : Str} {s : Step} (h : book.IsImage d t s) : s = plate := by
  obtain ⟨_, _, hc⟩ := h
  have hc : s ∈ (if d = bookA ∧ t = ".html".toList then [plate] else []) := hc
  split at hc
  · exact List.mem_singleton.1 hc
  · cases hc

theorem book_pdf {d : Doc} (hd : d ∈ book.docs) {b : Targets.Builder} (h : (buildersOf book.table d).get? ".pdf".toList = some b) : d = bookA := by
  rcases book_docs hd with rfl | rfl
  · rfl
  · exact absurd (wantedB (getB h).1) (by decide)

theorem book_converter {d : Doc} {s : Step} (hd : d ∈ book.docs) (h : book.IsConverter d s) : s = printing := by
  obtain ⟨⟨b, hb⟩, b', hb', hs⟩ := h
  obtain rfl := book_pdf hd hb
  have hs : s = ⟨[.path (toStr b'.out.full)], bookEnc "pdflatex".toList, "/p/.cache/a_1.pdf".toList, halve 2, false⟩ := hs
  rw [(getA hb').2, book_outs.2.1, book_encs.2.2.1] at hs
  exact hs

theorem book_final {d : Doc} {s : Step} (hd : d ∈ book.docs) (h : book.IsFinal d s) : s = pdfA := by
  obtain ⟨b, hb, hs⟩ := h
  obtain rfl := book_pdf hd hb
  have hs : s = ⟨[.path "/p/.cache/a_1.pdf".toList], bookEnc "copy".toList, toStr b.out.full, fun bs => bs.headD [], true⟩ := hs
  rw [(getA hb).2, book_outs.2.2.1, book_encs.2.1] at hs
  exact hs

theorem book_first {s : Step} (h : book.IsFirst s) : s = htmlA ∨ s = texA ∨ s = htmlB ∨ s = styling ∨ s = plate := by
  obtain ⟨d, hd, t, h | h | h⟩ := h
  · rcases book_page hd h with h | h | h <;> simp [h]
  · simp [book_copy h]
  · simp [book_image h]

theorem book_side {s : Step} (h : book.IsSide s) : s = styling ∨ s = plate ∨ s = printing := by
  obtain ⟨d, hd, h | ⟨t, h | h⟩⟩ := h
  · simp [book_converter hd h]
  · simp [book_copy h]
  · simp [book_image h]

theorem book_makes {s : Step} (h : book.Makes s) :
    s = htmlA ∨ s = texA ∨ s = htmlB ∨ s = styling ∨ s = plate ∨ s = printing ∨ s = pdfA := by
  rcases h with h | h | ⟨d, hd, h⟩
  · rcases book_first h with h | h | h | h | h <;> simp [h]
  · rcases book_side h with h | h | h <;> simp [h]
  · simp [book_final hd h]

theorem halve_small {c : UInt8} (hc : c ≤ 3) (bs : List Bytes) : ∃ x, halve c bs = [x] ∧ x < 200 := by
  refine ⟨_, rfl, ?_⟩
  rw [UInt8.lt_iff_toNat_lt]
  rw [UInt8.le_iff_toNat_le] at hc
  have := (bs.flatten.headD 0).toNat_lt
  simp only [UInt8.toNat_add, UInt8.toNat_div]
  have h2 : (2 : UInt8).toNat = 2 := rfl
  have h3 : (3 : UInt8).toNat = 3 := rfl
  rw [h3] at hc
  rw [h2]
  have h200 : (200 : UInt8).toNat = 200 := rfl
  omega

theorem book_known {s : Step} (h : book.Makes s) : booksteps.step s := by
  rcases book_makes h with rfl | rfl | rfl | rfl | rfl | rfl | rfl
  · exact ⟨_, 201, _, _, _, .inl ⟨rfl, rfl⟩, rfl⟩
  · exact ⟨_, 201, _, _, _, .inl ⟨rfl, rfl⟩, rfl⟩
  · exact ⟨_, 201, _, _, _, .inl ⟨rfl, rfl⟩, rfl⟩
  · exact ⟨_, 204, _, _, _, .inr (.inr (.inr ⟨rfl, rfl⟩)), rfl⟩
  · exact ⟨_, 203, _, _, _, .inr (.inr (.inl ⟨rfl, rfl⟩)), rfl⟩
  · exact ⟨_, 202, _, _, _, .inr (.inl ⟨rfl, rfl⟩), rfl⟩
  · exact ⟨_, 204, _, _, _, .inr (.inr (.inr ⟨rfl, rfl⟩)), rfl⟩

theorem booksteps_action {a : UInt8} {tool : List Bytes → Bytes} (h : a = 201 ∧ tool = halve 1 ∨ a = 202 ∧ tool = halve 2 ∨
    a = 203 ∧ tool = halve 3 ∨ a = 204 ∧ tool = fun bs => bs.headD []) : 200 < a := by
  rcases h with ⟨rfl, _⟩ | ⟨rfl, _⟩ | ⟨rfl, _⟩ | ⟨rfl, _⟩ <;> decide

theorem books_faithful : Faithful tiny booksteps := by
  intro s t fs fs' k o o' hs ht hf hf' hd hd' hc
  obtain ⟨p, a, out, c, inst, hac, rfl⟩ := hs
  obtain ⟨p', a', out', c', inst', hac', rfl⟩ := ht
  obtain ⟨x, y, hx, hy, rfl, rfl⟩ := tiny_digests hf (booksteps_action hac) hd
  obtain ⟨x', y', hx', hy', hk, rfl⟩ := tiny_digests hf' (booksteps_action hac') hd'
  simp only [List.cons.injEq, and_true] at hk
  obtain ⟨rfl, rfl⟩ := hk
  have : c = c' := by
    rcases hac with ⟨rfl, rfl⟩ | ⟨rfl, rfl⟩ | ⟨rfl, rfl⟩ | ⟨rfl, rfl⟩ <;>
      rcases hac' with ⟨h, rfl⟩ | ⟨h, rfl⟩ | ⟨h, rfl⟩ | ⟨h, rfl⟩ <;> first | rfl | (exact absurd h (by decide))
  subst this
  rw [tiny_current hx hy] at hc
  rw [tiny_current hx' hy', hc]

theorem book_sources {s s' : Step} (hs : book.IsFirst s) (hs' : book.Makes s') : Item.path s'.out ∉ s.parameters := by
  have h1 : ∀ q ∈ ["/p/src/a.dm".toList, "/p/src/sub/b.dm".toList, "/p/src/style.css".toList, "/p/src/fig.pdf".toList],
      ∀ o ∈ ["/p/html/a.html".toList, "/p/.cache/tex/a.tex".toList, "/p/html/sub/b.html".toList, "/p/html/style.css".toList,
        "/p/html/fig.svg".toList, "/p/.cache/a_1.pdf".toList, "/p/pdf/a.pdf".toList], Item.path o ∉ [Item.path q] := by decide +kernel
  have h2 : ∃ q ∈ ["/p/src/a.dm".toList, "/p/src/sub/b.dm".toList, "/p/src/style.css".toList, "/p/src/fig.pdf".toList],
      s.parameters = [.path q] := by
    rcases book_first hs with rfl | rfl | rfl | rfl | rfl
    · exact ⟨_, .head _, rfl⟩
    · exact ⟨_, .head _, rfl⟩
    · exact ⟨_, .tail _ (.head _), rfl⟩
    · exact ⟨_, .tail _ (.tail _ (.head _)), rfl⟩
    · exact ⟨_, .tail _ (.tail _ (.tail _ (.head _))), rfl⟩
  obtain ⟨q, hq, hp⟩ := h2
  rw [hp]
  refine h1 q hq _ ?_
  rcases book_makes hs' with rfl | rfl | rfl | rfl | rfl | rfl | rfl
  · exact .head _
  · exact .tail _ (.head _)
  · exact .tail _ (.tail _ (.head _))
  · exact .tail _ (.tail _ (.tail _ (.head _)))
  · exact .tail _ (.tail _ (.tail _ (.tail _ (.head _))))
  · exact .tail _ (.tail _ (.tail _ (.tail _ (.tail _ (.head _)))))
  · exact .tail _ (.tail _ (.tail _ (.tail _ (.tail _ (.tail _ (.head _))))))

theorem book_apart {s s' : Step} (hs : book.IsSide s) (hs' : book.Makes s') (he : s.out = s'.out) : s = s' := by
  have h1 : styling.out ≠ htmlA.out ∧ styling.out ≠ texA.out ∧ styling.out ≠ htmlB.out ∧ styling.out ≠ plate.out ∧
      styling.out ≠ printing.out ∧ styling.out ≠ pdfA.out := by decide +kernel
  have h2 : plate.out ≠ htmlA.out ∧ plate.out ≠ texA.out ∧ plate.out ≠ htmlB.out ∧ plate.out ≠ styling.out ∧
      plate.out ≠ printing.out ∧ plate.out ≠ pdfA.out := by decide +kernel
  have h3 : printing.out ≠ htmlA.out ∧ printing.out ≠ texA.out ∧ printing.out ≠ htmlB.out ∧ printing.out ≠ styling.out ∧
      printing.out ≠ plate.out ∧ printing.out ≠ pdfA.out := by decide +kernel
  obtain ⟨a1, a2, a3, a4, a5, a6⟩ := h1
  obtain ⟨b1, b2, b3, b4, b5, b6⟩ := h2
  obtain ⟨c1, c2, c3, c4, c5, c6⟩ := h3
  rcases book_side hs with rfl | rfl | rfl
  · rcases book_makes hs' with rfl | rfl | rfl | rfl | rfl | rfl | rfl
    exacts [absurd he a1, absurd he a2, absurd he a3, rfl, absurd he a4, absurd he a5, absurd he a6]
  · rcases book_makes hs' with rfl | rfl | rfl | rfl | rfl | rfl | rfl
    exacts [absurd he b1, absurd he b2, absurd he b3, absurd he b4, rfl, absurd he b5, absurd he b6]
  · rcases book_makes hs' with rfl | rfl | rfl | rfl | rfl | rfl | rfl
    exacts [absurd he c1, absurd he c2, absurd he c3, absurd he c4, absurd he c5, rfl, absurd he c6]

theorem book_proper : book.Proper booksteps where
  known s h := book_known h
  closed s fs bs hm hf hc p b hb := by
    simp only at hb
    split at hb
    · obtain ⟨q, a, out, c, inst, hac, rfl⟩ := book_known hm
      have hb := Option.some.inj hb
      subst hb
      rcases hac with ⟨rfl, rfl⟩ | ⟨rfl, rfl⟩ | ⟨rfl, rfl⟩ | ⟨rfl, rfl⟩
      · exact halve_small (by decide) bs
      · exact halve_small (by decide) bs
      · exact halve_small (by decide) bs
      · have hc : [fs q] = bs.map some := hc
        rcases bs with _ | ⟨x, bs⟩
        · injection hc
        · injection hc with hc _
          exact hf q x hc
    · exact hf p b hb
  faithful := books_faithful
  groups d hd t s fs fs' k hs hf hf' hk hk' := by
    obtain ⟨p, a, out, c, inst, hac, rfl⟩ := hs
    obtain ⟨x, _, rfl⟩ := tiny_key hf' (booksteps_action hac) hk'
    have he : ∀ l : Str, bookEnc ("build '".toList ++ l) = [205] := by
      intro l
      have hl : "build '".toList = 'b' :: "uild '".toList := by decide
      rw [hl]
      unfold bookEnc
      rw [if_neg, if_neg, if_neg]
      · intro h
        have h : some 'b' = some 'p' := congrArg List.head? h
        exact absurd h (by decide)
      · intro h
        have h : some 'b' = some 'c' := congrArg List.head? h
        exact absurd h (by decide)
      · intro h
        have h : some 'b' = some 'r' := congrArg List.head? h
        exact absurd h (by decide)
    have hk : tiny.hashItems fs [.other (bookEnc ("build '".toList ++ Kit.className t ++ "'".toList)), .path (toStr d.src.full),
      .other (bookEnc "sequential build".toList)] = some [x, a] := hk
    rw [List.append_assoc, he, book_encs.2.2.2] at hk
    cases hb : fs (toStr d.src.full) with
    | none => simp [Cfg.hashItems, Cfg.fed, hb] at hk
    | some b =>
      obtain ⟨y, rfl, hy⟩ := hf _ b hb
      have h1 : y < 205 := by
        rw [UInt8.lt_iff_toNat_lt] at *
        have h200 : (200 : UInt8).toNat = 200 := rfl
        have h205 : (205 : UInt8).toNat = 205 := rfl
        omega
      simp only [Cfg.hashItems, List.mapM_cons, List.mapM_nil, Cfg.fed, hb] at hk
      simp [tiny, fileFed, sortBytes, insertBytes, bytesLe, h1] at hk
      split at hk <;> simp at hk
  sources s s' hs hs' := book_sources hs hs'
  apart s s' hs hs' he := book_apart hs hs' he

/-- The files of the author. -/
def bookFiles : FS := fun p =>
  if p = "/p/src/a.dm".toList then some [10] else if p = "/p/src/sub/b.dm".toList then some [20]
  else if p = "/p/src/style.css".toList then some [30] else if p = "/p/src/fig.pdf".toList then some [40] else none

theorem bookFiles_small : small.files bookFiles := by
  intro p b h
  unfold bookFiles at h
  split at h
  · exact ⟨10, (Option.some.inj h).symm, by decide⟩
  · split at h
    · exact ⟨20, (Option.some.inj h).symm, by decide⟩
    · split at h
      · exact ⟨30, (Option.some.inj h).symm, by decide⟩
      · split at h
        · exact ⟨40, (Option.some.inj h).symm, by decide⟩
        · cases h

/-- The conditions of the theorems are met, and all files are built. -/
example : book.Of ⟨true, true⟩ Targets.envA bookA [bookB] ∧ book.Proper booksteps ∧ PastAdds book.cfg booksteps bookFiles [] :=
  ⟨book_of, book_proper, .new _ bookFiles_small⟩

def bookBuilt := book.build 6 40 bookFiles []

theorem bookBuilt_eq : bookBuilt.1 = some (.ok .done) ∧ bookBuilt.2.fs "/p/html/a.html".toList = some [6] ∧
    bookBuilt.2.fs "/p/html/sub/b.html".toList = some [11] ∧ bookBuilt.2.fs "/p/html/style.css".toList = some [30] ∧
    bookBuilt.2.fs "/p/html/fig.svg".toList = some [23] ∧ bookBuilt.2.fs "/p/pdf/a.pdf".toList = some [5] := by
  decide +kernel

/-- The image is edited after the build. -/
def bookEdited : FS := fun p => if p = "/p/src/fig.pdf".toList then some [80] else bookBuilt.2.fs p

def bookAgain := book.build 6 40 bookEdited bookBuilt.2.db

theorem bookAgain_eq : bookAgain.1 = some (.ok .done) ∧ bookAgain.2.fs "/p/src/fig.pdf".toList = some [80] ∧
    bookAgain.2.fs "/p/html/fig.svg".toList = some [23] ∧ halve 3 [[80]] = [43] := by decide +kernel

/-- **C81.** That the page was rendered is needed for its images: if only the file of an image is edited after a build, the next build
reports 'done' and leaves the old image. -/
theorem C81_image_refuted : ∃ (K : Kit) (U : Scope) (tools : Tools) (env : Paths.Env) (root : Doc) (subs : List Doc) (fs fs' : FS) (s : Step),
    K.Of tools env root subs ∧ K.Proper U ∧ PastAdds K.cfg U fs [] ∧ U.files fs' ∧
    (K.build 6 40 fs []).1 = some (.ok .done) ∧ (∀ p, Item.path p ∉ s.parameters → fs' p = (K.build 6 40 fs []).2.fs p) ∧
    (K.build 6 40 fs' (K.build 6 40 fs []).2.db).1 = some (.ok .done) ∧
    s ∈ K.images root ".html".toList ∧ ".html".toList ∈ root.targets ∧ ¬ Current (K.build 6 40 fs' (K.build 6 40 fs []).2.db).2.fs s := by
  have hpast : PastAdds book.cfg booksteps bookFiles [] := .new _ bookFiles_small
  have hf : booksteps.files bookBuilt.2.fs := by
    unfold bookBuilt
    exact (Kit.C81_past book_of book_proper hpast 6 40).files
  have e1 : book.build 6 40 bookFiles [] = bookBuilt := by unfold bookBuilt; rfl
  have e2 : book.build 6 40 bookEdited bookBuilt.2.db = bookAgain := by unfold bookAgain; rfl
  refine ⟨book, booksteps, _, _, bookA, [bookB], bookFiles, bookEdited, plate, book_of, book_proper, hpast, ?_⟩
  rw [e1, e2]
  refine ⟨?_, bookBuilt_eq.1, ?_, bookAgain_eq.1, ?_, .tail _ (.head _), ?_⟩
  · intro p b h
    unfold bookEdited at h
    split at h
    · exact ⟨80, (Option.some.inj h).symm, by decide⟩
    · exact hf p b h
  · intro p hp
    unfold bookEdited
    rw [if_neg]
    rintro rfl
    exact hp (.head _)
  · show plate ∈ (if bookA = bookA ∧ ".html".toList = ".html".toList then [plate] else [])
    rw [if_pos ⟨rfl, rfl⟩]
    exact .head _
  · intro h
    have h := (tiny_current (a := 203) (inst := false) (tool := halve 3) bookAgain_eq.2.1 bookAgain_eq.2.2.1).1 h
    rw [bookAgain_eq.2.2.2] at h
    exact absurd h (by decide)

end Verif.Build
