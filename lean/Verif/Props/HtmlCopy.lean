import Verif.Lemmas.HtmlCopy
import Verif.Props.Targets

/-! # C73: the stylesheets and images of templates are copied to where the links of a page lead -/

namespace Verif.HtmlCopy

open Verif Verif.Paths Verif.HtmlCopy.Spec
open Verif.Scanner (Files IsPage Names scan stubs Scanned LeadsTo LeadTo)
open Verif.Rewrite (Stub NoFile)
open Verif.Decider (Cfg Bytes FS readChunks)
open Verif.CopyFile (World)

variable {sp brk : Char → Bool} {env : Env} {d : Targets.Doc} {t : Str} {b : Targets.Builder} {files : Files}
  {templates infiles : List SourcePath} {cs : List Copy}

theorem made_out (h : Made sp env d t b files templates infiles cs) : ∃ m, t = '.' :: m ∧ IsName m ∧ '.' ∉ m ∧ t ∈ Targets.known ∧
    b.ext = t ∧ b.out.root = (if b.cache then env.cachePath else env.targetRoot) ∧ b.out.target = ⟨false, [m]⟩ ∧ Good b.out.root ∧
    GoodPy (.target b.out) ∧ b.out.sub.parts ≠ [] := by
  obtain ⟨dir, stem, ha⟩ := h.doc
  have hk : t ∈ Targets.known := by rcases h.target with rfl | rfl <;> decide
  have e := Targets.make_eq env h.envOk d dir stem t ha hk
  rw [h.builder] at e
  cases e
  have hroot : Good (if t ∈ d.targets then env.targetRoot else env.cachePath) := by
    by_cases hm : t ∈ d.targets
    · rw [if_pos hm]; exact h.envOk.root
    · rw [if_neg hm]; exact h.envOk.cache
  obtain ⟨n, x, hsub, hn, hs⟩ := ha.split
  have hgood : ∀ m, t = '.' :: m → IsName m → '.' ∉ m → GoodPy (.target (Targets.place env d dir stem t)) := by
    intro m hm h1 h2
    refine ⟨hroot, ?_, ?_, ha.rel, ?_⟩
    · intro c hc
      have : c = t.tail := List.mem_singleton.1 hc
      rw [this, hm]; exact h1
    · intro c hc
      rcases List.mem_append.1 hc with hc | hc
      · exact ha.good c hc
      · have : c = stem ++ t := List.mem_singleton.1 hc
        rw [this]
        refine ⟨by rw [hm]; simp, ?_, ?_⟩
        · intro e
          have := congrArg List.length e
          rw [hm] at this
          have h3 : m ≠ [] := h1.1
          cases m with
          | nil => exact h3 rfl
          | cons => simp at this; omega
        · intro e
          rcases List.mem_append.1 e with e | e
          · have : '/' ∈ n := by
              rcases hs with ⟨rfl, _⟩ | ⟨rfl, _⟩
              · exact List.mem_append_left _ e
              · exact e
            exact hn.2.2 this
          · rw [hm] at e
            rcases List.mem_cons.1 e with e | e
            · cases e
            · exact h1.2.2 e
    · show CleanTarget ⟨false, [t.tail]⟩
      have : toStr ⟨false, [t.tail]⟩ = m := by rw [hm]; simp [toStr, join]
      refine ⟨rfl, .inr ?_⟩
      rw [this]
      exact ⟨fun e => h2 (List.mem_of_mem_head? e), fun e => h2 (List.mem_of_mem_getLast? e)⟩
  rcases h.target with rfl | rfl
  · refine ⟨"html".toList, rfl, ⟨by decide, by decide, by decide⟩, by decide, hk, rfl, ?_, rfl, hroot, hgood _ rfl ⟨by decide, by decide, by decide⟩ (by decide), by simp [Targets.place, child]⟩
    simp only [Targets.place]; by_cases hm : ".html".toList ∈ d.targets <;> simp [hm]
  · refine ⟨"xhtml".toList, rfl, ⟨by decide, by decide, by decide⟩, by decide, hk, rfl, ?_, rfl, hroot, hgood _ rfl ⟨by decide, by decide, by decide⟩ (by decide), by simp [Targets.place, child]⟩
    simp only [Targets.place]; by_cases hm : ".xhtml".toList ∈ d.targets <;> simp [hm]

theorem toStr_inj {p q : Path} (hp : Good p) (hq : Good q) (h : toStr p = toStr q) : p = q := by
  rw [← parse_toStr p hp, ← parse_toStr q hq, h]

theorem wild_iff (names : List Str) (n : Str) (hn : names.getLast? = some n) :
    (∃ w ∈ wildcards, w.isSuffixOf n = true) ↔ Tracked names := by
  unfold Tracked wildcards
  constructor
  · rintro ⟨w, hw, h⟩
    refine ⟨n, hn, ?_⟩
    have h := List.isSuffixOf_iff_suffix.1 h
    simp only [List.mem_cons, List.not_mem_nil, or_false] at hw
    rcases hw with rfl | rfl | rfl
    · exact .inl h
    · exact .inr (.inl h)
    · exact .inr (.inr h)
  · rintro ⟨n', hn', h⟩
    rw [hn] at hn'; cases hn'
    rcases h with h | h | h
    · exact ⟨_, by simp, List.isSuffixOf_iff_suffix.2 h⟩
    · exact ⟨".svg".toList, by simp, List.isSuffixOf_iff_suffix.2 h⟩
    · exact ⟨".png".toList, by simp, List.isSuffixOf_iff_suffix.2 h⟩

theorem wild_name (p : SourcePath) (h : p.sub.abs = false) (w : Str) (hw : w ∈ wildcards) (hs : w.isSuffixOf (name p.full) = true) :
    Tracked (p.root.parts ++ p.sub.parts) := by
  rw [full_eq p h] at hs
  unfold name at hs
  simp only at hs
  cases hl : (p.root.parts ++ p.sub.parts).getLast? with
  | none =>
    rw [hl] at hs
    simp only [wildcards, List.mem_cons, List.not_mem_nil, or_false] at hw
    rcases hw with rfl | rfl | rfl <;> exact absurd hs (by decide)
  | some n =>
    rw [hl] at hs
    exact (wild_iff _ n hl).1 ⟨w, hw, hs⟩

theorem wild_one (n : Str) : ∀ v ∈ wildcards, ∀ w ∈ wildcards, v.isSuffixOf n = true → w.isSuffixOf n = true → v = w := by
  intro v hv w hw h1 h2
  have h1 := List.isSuffixOf_iff_suffix.1 h1
  have h2 := List.isSuffixOf_iff_suffix.1 h2
  have hlen : v.length = w.length := by
    simp only [wildcards, List.mem_cons, List.not_mem_nil, or_false] at hv hw
    rcases hv with rfl | rfl | rfl <;> rcases hw with rfl | rfl | rfl <;> rfl
  obtain ⟨a, rfl⟩ := h1
  obtain ⟨b, hb⟩ := h2
  exact (List.append_inj' hb hlen.symm).2.symm

theorem made_copies (h : Made sp env d t b files templates infiles cs) :
    cs = (wildcards.flatMap fun w => infiles.filter fun p => w.isSuffixOf (name p.full)).map
      fun p => ⟨p, ⟨b.out.root, ⟨false, [t.tail]⟩, p.sub⟩⟩ := by
  obtain ⟨m, rfl, h1, h2, hk, h3, h4, h5, h6, h7, h8⟩ := made_out h
  have hc := h.copied
  unfold copies at hc
  rw [← h4, h3, copiesOf_eq b.out.root h6 m h1 h2] at hc
  · exact (Except.ok.inj hc).symm
  · intro p hp
    obtain ⟨w, _, hp⟩ := List.mem_flatMap.1 hp
    exact ((infiles_from h.own h.depends).1 p (List.mem_filter.1 hp).1).1

/-- C73. The copies of a page: one for each stylesheet and image that a `link` or `img` tag of one of its templates names, from the
directory of the template to the same place below the directory of the target. -/
theorem C73_copied (hgt : sp '>' = false) (hh : sp 'h' = false) (hs : sp 's' = false)
    (h : Made sp env d t b files templates infiles cs) :
    (∀ p ∈ templates, ∀ stub names, Linked sp brk files p stub names → copyOf b.out.root t p names ∈ cs) ∧
    (∀ x ∈ cs, ∃ p ∈ templates, ∃ names, x = copyOf b.out.root t p names ∧ Tracked (Spec.Copy.src x).parts ∧ (∀ n ∈ names, IsName n) ∧
      (x.file = p ∨ ∃ text n, IsPage files (.source p) p.root ⟨false, []⟩ text ∧ InTag sp text n ∧
        LeadsTo files p.root ⟨false, []⟩ n x.file)) ∧
    (cs.map Spec.Copy.src).Nodup := by
  obtain ⟨f1, f2, f3⟩ := infiles_from h.own h.depends
  have hcs := made_copies h
  refine ⟨?_, ?_, ?_⟩
  · intro p hp stub names hl
    obtain ⟨text, ns, hpage, hns, hstub⟩ := hl.page
    obtain ⟨tx, hst⟩ := hl.path
    obtain ⟨n, hn, hk⟩ := hl.kind
    rw [← Scanner.names_stubs sp hgt hh hs text ns hns] at hstub
    obtain ⟨x, hx, y, hy, e⟩ := f3 p hp text hpage stub hstub
    obtain rfl := leads_stub hst hx
    obtain ⟨hsound, q, hq, hqr, _⟩ := f1 y hy
    have hyx := notNested_eq h.apart p q hp hq ⟨p.root, ⟨false, names⟩⟩ y rfl hqr rfl hsound.2.2 e
    subst hyx
    rw [hcs]
    refine List.mem_map.2 ⟨_, ?_, rfl⟩
    rw [List.mem_flatMap]
    obtain ⟨w, hw, hsf⟩ := (wild_iff names n hn).2 ⟨n, hn, hk⟩
    refine ⟨w, hw, List.mem_filter.2 ⟨hy, ?_⟩⟩
    rw [wild_suffix _ names rfl n hn]; exact hsf
  · intro x hx
    rw [hcs] at hx
    obtain ⟨y, hy, rfl⟩ := List.mem_map.1 hx
    obtain ⟨w, hw, hy⟩ := List.mem_flatMap.1 hy
    obtain ⟨hy, hsf⟩ := List.mem_filter.1 hy
    obtain ⟨hsound, p, hp, hr, hor⟩ := f1 y hy
    have hsub : y.sub = ⟨false, y.sub.parts⟩ := by rw [← hsound.2.2]
    have htr := wild_name y hsound.2.2 w hw hsf
    rcases hor with hor | ⟨text, hpg, n', hn', hl'⟩
    · refine ⟨y, hor, y.sub.parts, ?_, htr, hsound.2.1, .inl rfl⟩
      unfold copyOf; rw [← hsub]
    · refine ⟨p, hp, y.sub.parts, ?_, htr, hsound.2.1, .inr ⟨text, n', hpg, (Scanner.C61_sound sp hgt text n' hn').2, hl'⟩⟩
      unfold copyOf; rw [← hsub, ← hr]
  · rw [hcs, List.map_map]
    have he : ∀ y ∈ wildcards.flatMap fun w => infiles.filter fun p => w.isSuffixOf (name p.full),
        (Spec.Copy.src ∘ fun p => (⟨p, ⟨b.out.root, ⟨false, [t.tail]⟩, p.sub⟩⟩ : Copy)) y = y.full := by
      intro y hy
      obtain ⟨w, _, hy⟩ := List.mem_flatMap.1 hy
      exact (full_eq y (f1 y (List.mem_filter.1 hy).1).1.2.2).symm
    rw [List.map_congr_left he, List.map_flatMap]
    have hw : wildcards.Nodup := by decide
    have : ∀ ws : List Str, (∀ w ∈ ws, w ∈ wildcards) → ws.Nodup →
        (ws.flatMap fun w => (infiles.filter fun p => w.isSuffixOf (name p.full)).map SourcePath.full).Nodup := by
      intro ws
      induction ws with
      | nil => intro _ _; exact List.nodup_nil
      | cons w ws ih =>
        intro h1 h2
        rw [List.flatMap_cons, List.nodup_append]
        refine ⟨((List.filter_sublist).map _).nodup f2, ih (fun v hv => h1 v (List.mem_cons_of_mem _ hv)) (List.nodup_cons.1 h2).2, ?_⟩
        intro x hx y hy e
        subst e
        obtain ⟨u, hu, rfl⟩ := List.mem_map.1 hx
        obtain ⟨v, hv, hy⟩ := List.mem_flatMap.1 hy
        obtain ⟨u', hu', e⟩ := List.mem_map.1 hy
        have k1 := (List.mem_filter.1 hu).2
        have k2 := (List.mem_filter.1 hu').2
        rw [e] at k2
        have := wild_one _ w (h1 w List.mem_cons_self) v (h1 v (List.mem_cons_of_mem _ hv)) k1 k2
        exact (List.nodup_cons.1 h2).1 (this ▸ hv)
    exact this _ (fun _ h => h) hw

/-! ### Running the copies -/

theorem made_good (h : Made sp env d t b files templates infiles cs) (x : Copy) (hx : x ∈ cs) :
    Good (Spec.Copy.src x) ∧ Good (Spec.Copy.dst x) ∧ x.file.full = Spec.Copy.src x ∧ x.out.full = Spec.Copy.dst x ∧
    Tracked (Spec.Copy.src x).parts ∧ x.out.sub = x.file.sub ∧ x.out.target = ⟨false, [t.tail]⟩ := by
  obtain ⟨m, rfl, h1, h2, hk, h3, h4, h5, h6, h7, h8⟩ := made_out h
  rw [made_copies h] at hx
  obtain ⟨y, hy, rfl⟩ := List.mem_map.1 hx
  obtain ⟨w, hw, hy⟩ := List.mem_flatMap.1 hy
  obtain ⟨hy, hsf⟩ := List.mem_filter.1 hy
  have hs := ((infiles_from h.own h.depends).1 y hy).1
  refine ⟨?_, ?_, full_eq y hs.2.2, ?_, wild_name y hs.2.2 w hw hsf, rfl, rfl⟩
  · intro c hc
    rcases List.mem_append.1 hc with hc | hc
    · exact hs.1 c hc
    · exact hs.2.1 c hc
  · intro c hc
    rcases List.mem_append.1 hc with hc | hc
    · rcases List.mem_append.1 hc with hc | hc
      · exact h6 c hc
      · rw [List.mem_singleton.1 hc]; exact h1
    · exact hs.2.1 c hc
  · simp [TargetPath.full, div, hs.2.2, Spec.Copy.dst]

theorem run_asOps {c : Cfg} {enc : Str → Bytes} (h : Made sp env d t b files templates infiles cs) (w : World) :
    runCopies c enc w cs = CopyFile.run c enc w (asOps cs) := by
  unfold runCopies asOps
  congr 1
  apply List.map_congr_left
  intro x hx
  obtain ⟨_, _, h1, h2, _⟩ := made_good h x hx
  rw [h1, h2]

theorem split_separate (hsep : Separate cs) {pre post : List Copy} {x : Copy} (he : cs = pre ++ x :: post) :
    (∀ y ∈ post, Spec.Copy.dst x ≠ Spec.Copy.dst y) ∧ ∀ y ∈ pre, Spec.Copy.dst x ≠ Spec.Copy.dst y := by
  obtain ⟨h, _⟩ := hsep
  rw [he, List.map_append, List.map_cons, List.nodup_append, List.nodup_cons] at h
  refine ⟨fun y hy e => h.2.1.1 (e ▸ List.mem_map_of_mem hy), fun y hy e => ?_⟩
  exact h.2.2 _ (List.mem_map_of_mem hy) _ List.mem_cons_self e.symm

/-- What the copies do to a place, and the world a copy finds. -/
theorem run_split {c : Cfg} {enc : Str → Bytes} (h : Made sp env d t b files templates infiles cs) (hsep : Separate cs) (w : World)
    {pre post : List Copy} {x : Copy} (he : cs = pre ++ x :: post) :
    let v := CopyFile.run c enc w (asOps pre)
    let v' := (CopyFile.copyBuild c enc v [.path (toStr (Spec.Copy.src x))] (toStr (Spec.Copy.dst x))).2
    v.fs (toStr (Spec.Copy.src x)) = w.fs (toStr (Spec.Copy.src x)) ∧ v.fs (toStr (Spec.Copy.dst x)) = w.fs (toStr (Spec.Copy.dst x)) ∧
    (runCopies c enc w cs).fs (toStr (Spec.Copy.dst x)) = v'.fs (toStr (Spec.Copy.dst x)) ∧
    (runCopies c enc w cs).fs (toStr (Spec.Copy.src x)) = w.fs (toStr (Spec.Copy.src x)) := by
  intro v v'
  have hx : x ∈ cs := by rw [he]; simp
  have hg := made_good h
  obtain ⟨gs, gd, _⟩ := hg x hx
  obtain ⟨s1, s2⟩ := split_separate hsep he
  have hin : ∀ y, y ∈ pre ∨ y ∈ post → y ∈ cs := by
    intro y hy; rw [he]
    rcases hy with hy | hy
    · exact List.mem_append_left _ hy
    · exact List.mem_append_right _ (List.mem_cons_of_mem _ hy)
  have hsrc : ∀ y ∈ cs, toStr (Spec.Copy.src x) ≠ toStr (Spec.Copy.dst y) := fun y hy e =>
    hsep.2 y hy x hx (toStr_inj gs (hg y hy).2.1 e).symm
  have hd1 : ∀ y ∈ pre, toStr (Spec.Copy.dst x) ≠ toStr (Spec.Copy.dst y) := fun y hy e =>
    s2 y hy (toStr_inj gd (hg y (hin y (.inl hy))).2.1 e)
  have hd2 : ∀ y ∈ post, toStr (Spec.Copy.dst x) ≠ toStr (Spec.Copy.dst y) := fun y hy e =>
    s1 y hy (toStr_inj gd (hg y (hin y (.inr hy))).2.1 e)
  refine ⟨run_other w pre _ fun y hy => hsrc y (hin y (.inl hy)), run_other w pre _ hd1, ?_, ?_⟩
  · rw [run_asOps h, he]
    have : asOps (pre ++ x :: post) =
        asOps pre ++ (.copy [.path (toStr (Spec.Copy.src x))] (toStr (Spec.Copy.dst x)) :: asOps post) := by simp [asOps]
    rw [this, run_append]
    exact run_other v' post _ hd2
  · rw [run_asOps h]
    exact run_other w cs _ hsrc

/-- C73. In any world in which the files are there, each of the copies is there when they have been made: where there was none before,
with the content of the file. All other files are as they were; so are the files that are copied. -/
theorem C73_files (c : Cfg) (enc : Str → Bytes) (h : Made sp env d t b files templates infiles cs) (hsep : Separate cs) (w : World)
    (hsrc : ∀ x ∈ cs, w.fs (toStr (Spec.Copy.src x)) ≠ none) :
    (∀ x ∈ cs, (runCopies c enc w cs).fs (toStr (Spec.Copy.dst x)) ≠ none ∧
      (w.fs (toStr (Spec.Copy.dst x)) = none →
        (runCopies c enc w cs).fs (toStr (Spec.Copy.dst x)) = w.fs (toStr (Spec.Copy.src x)))) ∧
    (∀ x ∈ cs, (runCopies c enc w cs).fs (toStr (Spec.Copy.src x)) = w.fs (toStr (Spec.Copy.src x))) ∧
    ∀ q, (∀ x ∈ cs, q ≠ toStr (Spec.Copy.dst x)) → (runCopies c enc w cs).fs q = w.fs q := by
  refine ⟨?_, ?_, ?_⟩
  · intro x hx
    obtain ⟨pre, post, he⟩ := List.append_of_mem hx
    obtain ⟨e1, e2, e3, _⟩ := run_split (c := c) (enc := enc) h hsep w he
    rw [e3]
    obtain ⟨k1, k2⟩ := copy_exists (c := c) (enc := enc) (CopyFile.run c enc w (asOps pre)) (toStr (Spec.Copy.src x))
      (toStr (Spec.Copy.dst x)) (by rw [e1]; exact hsrc x hx)
    refine ⟨k1, fun hn => ?_⟩
    rw [k2 (by rw [e2]; exact hn), e1]
  · intro x hx
    obtain ⟨pre, post, he⟩ := List.append_of_mem hx
    exact (run_split (c := c) (enc := enc) h hsep w he).2.2.2
  · intro q hq
    rw [run_asOps h]
    exact run_other w cs q hq

theorem plain_left {c : Cfg} {enc : Str → Bytes} {w : World} {a b : List CopyFile.Op} (h : CopyFile.Plain c enc w (a ++ b)) :
    CopyFile.Plain c enc w a where
  save ps out hm := h.save ps out (List.mem_append_left _ hm)
  copy ps out q hm := h.copy ps out q (List.mem_append_left _ hm)
  other pre is o post ts s e := h.other pre is o (post ++ b) ts s (by rw [e]; simp)

theorem getLast_suffix (l : List Str) (n : Str) (h : l.getLast? = some n) : n <:+ join ['/'] l := by
  induction l with
  | nil => cases h
  | cons a l ih =>
    cases l with
    | nil => cases h; exact List.suffix_refl _
    | cons b l =>
      obtain ⟨p, hp⟩ := ih (by simpa using h)
      refine ⟨a ++ '/' :: p, ?_⟩
      rw [join, ← hp]
      · simp
      · simp

theorem toStr_suffix (p : Path) (n : Str) (h : p.parts.getLast? = some n) : n <:+ toStr p := by
  obtain ⟨a, ha⟩ := getLast_suffix _ _ h
  have hne : p.parts ≠ [] := by intro e; rw [e] at h; cases h
  unfold toStr
  rw [if_neg hne, ← ha]
  split
  · exact ⟨'/' :: a, rfl⟩
  · exact ⟨a, rfl⟩

theorem not_pdf (s n : Str) (h : n <:+ s) (hn : ".css".toList <:+ n ∨ ".svg".toList <:+ n ∨ ".png".toList <:+ n ∨ "html".toList <:+ n) :
    ¬ ".pdf".toList <:+ s := by
  obtain ⟨a, rfl⟩ := h
  rintro ⟨b, hb⟩
  rcases hn with ⟨z, rfl⟩ | ⟨z, rfl⟩ | ⟨z, rfl⟩ | ⟨z, rfl⟩ <;>
  · rw [← List.append_assoc] at hb
    have := (List.append_inj' hb rfl).2
    exact absurd this (by decide)

/-- C73, for what the decider can tell apart (see `C68_build_partial`). After anything that happened in the project, the copies have the
contents of the files. -/
theorem C73_content_partial (c : Cfg) (enc : Str → Bytes) (n : Nat) (hn : n > 0) (hc : c.chunks = readChunks n)
    (he : ∀ s, enc s = enc "copy".toList → s = "copy".toList) (hpdf : ∀ s, c.isPdf s = true → ".pdf".toList <:+ s)
    (h : Made sp env d t b files templates infiles cs) (hsep : Separate cs) (fs0 : FS) (ops : List CopyFile.Op)
    (hsrc : ∀ x ∈ cs, (CopyFile.run c enc ⟨fs0, []⟩ ops).fs (toStr (Spec.Copy.src x)) ≠ none)
    (hplain : CopyFile.Plain c enc ⟨fs0, []⟩ (ops ++ asOps cs))
    (hclash : ∀ pre x post, cs = pre ++ x :: post →
      CopyFile.NoClash c enc ⟨fs0, []⟩ (ops ++ asOps pre) (toStr (Spec.Copy.src x)) (toStr (Spec.Copy.dst x))) :
    ∀ x ∈ cs, ∃ s, (runCopies c enc (CopyFile.run c enc ⟨fs0, []⟩ ops) cs).fs (toStr (Spec.Copy.src x)) = some s ∧
      (runCopies c enc (CopyFile.run c enc ⟨fs0, []⟩ ops) cs).fs (toStr (Spec.Copy.dst x)) = some s := by
  intro x hx
  obtain ⟨pre, post, e⟩ := List.append_of_mem hx
  obtain ⟨e1, e2, e3, e4⟩ := run_split (c := c) (enc := enc) h hsep (CopyFile.run c enc ⟨fs0, []⟩ ops) e
  obtain ⟨gs, gd, _, _, ⟨last, hl, htr⟩, hsub, htar⟩ := made_good h x hx
  have p1 : c.isPdf (toStr (Spec.Copy.src x)) = false := by
    cases hp : c.isPdf (toStr (Spec.Copy.src x)) with
    | false => rfl
    | true =>
      refine absurd (hpdf _ hp) (not_pdf _ last (toStr_suffix _ _ hl) ?_)
      rcases htr with h | h | h
      · exact .inl h
      · exact .inr (.inl h)
      · exact .inr (.inr (.inl h))
  have p2 : c.isPdf (toStr (Spec.Copy.dst x)) = false := by
    cases hp : c.isPdf (toStr (Spec.Copy.dst x)) with
    | false => rfl
    | true =>
      cases hs : x.file.sub.parts.getLast? with
      | none =>
        refine absurd (hpdf _ hp) (not_pdf _ t.tail (toStr_suffix _ _ ?_) ?_)
        · rw [List.getLast?_eq_none_iff] at hs
          simp only [Spec.Copy.dst, hsub, hs, htar, List.append_nil, List.getLast?_append]
          rfl
        · rcases h.target with rfl | rfl
          · exact .inr (.inr (.inr ⟨[], rfl⟩))
          · exact .inr (.inr (.inr ⟨['x'], rfl⟩))
      | some m =>
        have : m = last := by
          have hl' := hl
          simp only [Spec.Copy.src, List.getLast?_append, hs] at hl'
          exact Option.some.inj hl'
        subst this
        refine absurd (hpdf _ hp) (not_pdf _ m (toStr_suffix _ _ ?_) ?_)
        · simp only [Spec.Copy.dst, hsub, List.getLast?_append, hs]; rfl
        · rcases htr with h | h | h
          · exact .inl h
          · exact .inr (.inl h)
          · exact .inr (.inr (.inl h))
  have hne : toStr (Spec.Copy.src x) ≠ toStr (Spec.Copy.dst x) := fun e' => hsep.2 x hx x hx (toStr_inj gs gd e').symm
  have hpl : CopyFile.Plain c enc ⟨fs0, []⟩ (ops ++ asOps pre) := by
    apply plain_left (b := asOps (x :: post))
    have : asOps cs = asOps pre ++ asOps (x :: post) := by rw [e]; simp [asOps]
    rw [List.append_assoc, ← this]; exact hplain
  obtain ⟨w', k1, ⟨s, k2, k3⟩, k4⟩ := CopyFile.C68_build_partial (c := c) (enc := enc) n hn hc he fs0 (ops ++ asOps pre) _ _ hpl
    (hclash pre x post e) hne (by rw [p1, p2]) _ rfl (by rw [run_append, e1]; exact hsrc x hx)
  rw [run_append] at k1 k4
  have k5 : (CopyFile.copyBuild c enc (CopyFile.run c enc (CopyFile.run c enc ⟨fs0, []⟩ ops) (asOps pre))
      [.path (toStr (Spec.Copy.src x))] (toStr (Spec.Copy.dst x))).2 = w' := by rw [k1]
  rw [k5] at e3
  refine ⟨s, ?_, ?_⟩
  · rw [e4, ← e1, ← k4 _ hne]
    cases k2 with
    | file _ _ h1 _ => exact h1
    | pdf _ _ _ _ _ h2 _ => rw [p1] at h2; cases h2
  · rw [e3]
    cases k3 with
    | file _ _ h1 _ => exact h1
    | pdf _ _ _ _ _ h2 _ => rw [p2] at h2; cases h2

/-- C73, for names of which the search for the file of a path finds nothing before the target directory (see `C70_link_partial`). When the
copies have been made, the path of a stylesheet or an image in a template is replaced by a link that leads from the page to its copy. -/
theorem C73_link_partial (hgt : sp '>' = false) (hh : sp 'h' = false) (hs : sp 's' = false) (c : Cfg) (enc : Str → Bytes)
    (h : Made sp env d t b files templates infiles cs) (hsep : Separate cs) (w : World)
    (hsrc : ∀ x ∈ cs, w.fs (toStr (Spec.Copy.src x)) ≠ none) (p : SourcePath) (hp : p ∈ templates) (stub : Str) (names : List Str)
    (hl : Linked sp brk files p stub names) (cwd : List Str) (hcwd : ∀ n ∈ cwd, IsName n) (ctx : Links.Ctx)
    (hrel : ctx.relative ≠ some false) (outs : Links.Files) (hdoc : ctx.document = some outs) (hpage : outs t = .ok (some b.out))
    (isFile : Path → Except PathError Bool)
    (hfile : ∀ q, isFile q = .ok ((runCopies c enc w cs).fs (toStr q)).isSome)
    (h1 : NoFile isFile ⟨false, names⟩) (h2 : NoFile isFile ⟨false, "None".toList :: "None".toList :: names⟩) :
    ∃ x ∈ cs, x = copyOf b.out.root t p names ∧ (runCopies c enc w cs).fs (toStr (Spec.Copy.dst x)) ≠ none ∧
      ∃ link, Rewrite.rewritePath sp brk isFile cwd ctx t b.out stub = .ok link ∧ Links.Leads cwd b.out link x.out := by
  have hx := (C73_copied (brk := brk) hgt hh hs h).1 p hp stub names hl
  have hex := ((C73_files c enc h hsep w hsrc).1 _ hx).1
  refine ⟨_, hx, rfl, hex, ?_⟩
  obtain ⟨m, rfl, k1, k2, hk, k3, k4, k5, k6, k7, k8⟩ := made_out h
  obtain ⟨text, hst⟩ := hl.path
  have htd : Rewrite.inTarget b.out names = Spec.Copy.dst (copyOf b.out.root ('.' :: m) p names) := by
    simp [Rewrite.inTarget, Spec.Copy.dst, copyOf, k5]
  have := Rewrite.C70_link_partial (sp := sp) (brk := brk) (isFile := isFile) cwd hcwd b.out b.out k7 k7 k8 ctx hrel outs hdoc ('.' :: m)
    (by simp) (by simpa using hpage) stub text names hst h1 h2
    (by unfold Rewrite.IsFile; rw [hfile, htd]; congr 1; exact Option.isSome_iff_ne_none.2 hex)
  rw [k5] at this
  exact this

/-! ### A page, and what does not hold -/

open Verif.Targets (envA docA envA_ok)
open Verif.Scanner (space)

def linkA : Str := "<p><link href=\"a.css\"></p>".toList

/-- Templates next to each other, in directories of their own, and in directories of which one is in the other. -/
def filesA : Files := fun p =>
  if p = parse "/t/a.html".toList then some linkA
  else if p = parse "/t/a.css".toList then some "body".toList
  else if p = parse "/u/b.html".toList then some linkA
  else if p = parse "/u/a.css".toList then some "table".toList
  else if p = parse "/v/c.html".toList then some "<link href=\"in/a.css\">".toList
  else if p = parse "/v/in/d.html".toList then some linkA
  else if p = parse "/v/in/a.css".toList then some "p".toList
  else if p = parse "/w/e.html".toList then some "<img src=\"x.jpg\">".toList
  else if p = parse "/w/x.jpg".toList then some "picture".toList
  else none

def tplA : SourcePath := ⟨parse "/t".toList, parse "a.html".toList⟩
def tplB : SourcePath := ⟨parse "/u".toList, parse "b.html".toList⟩
def tplC : SourcePath := ⟨parse "/v".toList, parse "c.html".toList⟩
def tplD : SourcePath := ⟨parse "/v/in".toList, parse "d.html".toList⟩
def tplE : SourcePath := ⟨parse "/w".toList, parse "e.html".toList⟩

def builderA : Targets.Builder := ⟨".html".toList, false, ⟨parse "/p".toList, parse "html".toList, parse "a.html".toList⟩⟩

def cssA : SourcePath := ⟨parse "/t".toList, parse "a.css".toList⟩
def cssB : SourcePath := ⟨parse "/u".toList, parse "a.css".toList⟩
def cssD : SourcePath := ⟨parse "/v".toList, parse "in/a.css".toList⟩
def jpgE : SourcePath := ⟨parse "/w".toList, parse "x.jpg".toList⟩

def brkA (c : Char) : Bool := c = '\n'

theorem docA_at : ∃ dir stem, Targets.At docA dir stem :=
  ⟨_, _, (Targets.project_abc.at_ docA (by simp)).choose_spec.choose_spec⟩

theorem templates_ok : ∀ p ∈ [tplA, tplB, tplC, tplD, tplE], IsTemplate p := by
  unfold IsTemplate Good IsName
  intro p hp
  simp only [List.mem_cons, List.not_mem_nil, or_false] at hp
  rcases hp with rfl | rfl | rfl | rfl | rfl
  · exact ⟨by decide, "a.html".toList, by decide, by decide⟩
  · exact ⟨by decide, "b.html".toList, by decide, by decide⟩
  · exact ⟨by decide, "c.html".toList, by decide, by decide⟩
  · exact ⟨by decide, "d.html".toList, by decide, by decide⟩
  · exact ⟨by decide, "e.html".toList, by decide, by decide⟩

theorem madeA : Made space envA docA ".html".toList builderA filesA [tplA] [tplA, cssA]
    [copyOf (parse "/p".toList) ".html".toList tplA ["a.css".toList]] where
  envOk := envA_ok
  doc := docA_at
  target := .inl rfl
  builder := by rfl
  own p hp := templates_ok p (by simp only [List.mem_cons, List.not_mem_nil, or_false] at hp ⊢; exact .inl hp)
  apart := by unfold NotNested; decide
  depends := by rfl
  copied := by rfl

theorem stubA : Stub space brkA "a.css".toList "a.css".toList ["a.css".toList] where
  around := ⟨0, 0, rfl⟩
  slashed := .one _ (by decide)
  good := by unfold IsName; decide
  line := by decide
  first := by decide
  last := by decide

theorem linkedA (p : SourcePath) (hp : p ∈ [tplA, tplB, tplD]) : Linked space brkA filesA p "a.css".toList ["a.css".toList] where
  page := by
    refine ⟨linkA, _, ?_, Scanner.names_example, by simp⟩
    simp only [List.mem_cons, List.not_mem_nil, or_false] at hp
    rcases hp with rfl | rfl | rfl
    · exact ⟨⟨".html".toList, by simp, by decide⟩, by decide, .inl ⟨_, rfl, rfl, by decide⟩⟩
    · exact ⟨⟨".html".toList, by simp, by decide⟩, by decide, .inl ⟨_, rfl, rfl, by decide⟩⟩
    · exact ⟨⟨".html".toList, by simp, by decide⟩, by decide, .inl ⟨_, rfl, rfl, by decide⟩⟩
  path := ⟨_, stubA⟩
  kind := ⟨"a.css".toList, rfl, .inl ⟨['a'], rfl⟩⟩

/-- A page with a copy meets the conditions. -/
example : Separate [copyOf (parse "/p".toList) ".html".toList tplA ["a.css".toList]] ∧
    toStr (Spec.Copy.src (copyOf (parse "/p".toList) ".html".toList tplA ["a.css".toList])) = "/t/a.css".toList ∧
    toStr (Spec.Copy.dst (copyOf (parse "/p".toList) ".html".toList tplA ["a.css".toList])) = "/p/html/a.css".toList ∧
    ∃ x, x ∈ [copyOf (parse "/p".toList) ".html".toList tplA ["a.css".toList]] ∧ x = copyOf builderA.out.root ".html".toList tplA ["a.css".toList] :=
  ⟨by unfold Separate; decide, by decide, by decide, _,
    (C73_copied (brk := brkA) (by decide) (by decide) (by decide) madeA).1 tplA (by simp) _ _ (linkedA tplA (by simp)), rfl⟩

/-- Finding: if the directory of a template is in that of another, a stylesheet that both name is copied for one of them only. For the other
there is nothing at the place its path stands for. -/
theorem C73_nested_refuted : ∃ (files : Files) (templates infiles : List SourcePath) (cs : List Copy) (p : SourcePath),
    (∀ p ∈ templates, IsTemplate p) ∧ infilepaths space files templates = .ok infiles ∧ copies envA builderA infiles = .ok cs ∧
    p ∈ templates ∧ Linked space brkA files p "a.css".toList ["a.css".toList] ∧
    ∀ x ∈ cs, Spec.Copy.dst x ≠ Spec.Copy.dst (copyOf builderA.out.root ".html".toList p ["a.css".toList]) := by
  refine ⟨filesA, [tplC, tplD], [tplC, tplD, cssD], [⟨cssD, ⟨parse "/p".toList, parse "html".toList, parse "in/a.css".toList⟩⟩], tplD, ?_,
    by rfl, by rfl, by simp, linkedA tplD (by simp), by decide⟩
  intro p hp
  refine templates_ok p ?_
  simp only [List.mem_cons, List.not_mem_nil, or_false] at hp ⊢
  rcases hp with h | h
  · exact .inr (.inr (.inl h))
  · exact .inr (.inr (.inr (.inl h)))

/-- Finding: the stylesheets of two templates that have the same path next to their templates are copied to the same place. So one page
has the stylesheet of the other. -/
theorem C73_clash : ∃ (files : Files) (templates infiles : List SourcePath) (cs : List Copy) (x y : Copy),
    Made space envA docA ".html".toList builderA files templates infiles cs ∧ x ∈ cs ∧ y ∈ cs ∧
    Spec.Copy.dst x = Spec.Copy.dst y ∧ files (Spec.Copy.src x) ≠ files (Spec.Copy.src y) := by
  refine ⟨filesA, [tplA, tplB], [tplA, tplB, cssA, cssB], [copyOf (parse "/p".toList) ".html".toList tplA ["a.css".toList],
    copyOf (parse "/p".toList) ".html".toList tplB ["a.css".toList]], copyOf (parse "/p".toList) ".html".toList tplA ["a.css".toList],
    copyOf (parse "/p".toList) ".html".toList tplB ["a.css".toList], ?_, by simp, by simp, by decide, by decide⟩
  exact {
    envOk := envA_ok, doc := docA_at, target := .inl rfl, builder := by rfl
    own := fun p hp => templates_ok p (by
      simp only [List.mem_cons, List.not_mem_nil, or_false] at hp ⊢
      rcases hp with h | h
      · exact .inl h
      · exact .inr (.inl h))
    apart := by unfold NotNested; decide
    depends := by rfl
    copied := by rfl }

/-- Finding: a picture of another type is one of the files that the page depends on, and it is not copied. -/
theorem C73_other_types : ∃ (files : Files) (templates infiles : List SourcePath) (x : SourcePath),
    Made space envA docA ".html".toList builderA files templates infiles [] ∧ x ∈ infiles ∧
    files x.full = some "picture".toList ∧ suffix x.full = ".jpg".toList := by
  refine ⟨filesA, [tplE], [tplE, jpgE], jpgE, ?_, by simp, by decide, by decide⟩
  exact {
    envOk := envA_ok, doc := docA_at, target := .inl rfl, builder := by rfl
    own := fun p hp => templates_ok p (by
      simp only [List.mem_cons, List.not_mem_nil, or_false] at hp ⊢
      exact .inr (.inr (.inr (.inr hp))))
    apart := by unfold NotNested; decide
    depends := by rfl
    copied := by rfl }

end Verif.HtmlCopy
