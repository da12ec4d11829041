import Verif.Spec.HtmlCopy
import Verif.Lemmas.Targets
import Verif.Lemmas.Lists
import Verif.Props.CopyFile
import Verif.Props.Scanner
import Verif.Props.Rewrite

/-! # Lemmas for the files copied for a page -/

namespace Verif.HtmlCopy

open Verif Verif.Paths Verif.HtmlCopy.Spec
open Verif.Scanner (Files IsPage Names scan stubs Scanned LeadsTo LeadTo)
open Verif.Rewrite (Stub)
open Verif.Decider (Cfg Bytes)
open Verif.CopyFile (World)

/-- A path object for a file below a root. -/
def Sound (p : SourcePath) : Prop := Good p.root ∧ Good p.sub ∧ p.sub.abs = false

theorem copiesOf_eq (root : Path) (hr : Good root) (m : Str) (hm : IsName m) (hd : '.' ∉ m) (ps : List SourcePath)
    (h : ∀ p ∈ ps, Sound p) :
    copiesOf root ('.' :: m) ps = .ok (ps.map fun p => ⟨p, ⟨root, ⟨false, [m]⟩, p.sub⟩⟩) := by
  induction ps with
  | nil => rfl
  | cons p ps ih =>
    have hp := h p List.mem_cons_self
    have e : mkTarget (toStr root) ('.' :: m) (toStr p.sub) = .ok ⟨root, ⟨false, [m]⟩, p.sub⟩ := by
      unfold mkTarget
      rw [parse_toStr _ hp.2.1, parse_toStr _ hr, if_neg (by rw [hp.2.2]; simp)]
      have e1 : Paths.stripDots ('.' :: m) = m := by
        unfold Paths.stripDots
        have hm' : ∀ c : Char, c ∈ m → c ≠ '.' := fun c hc he => hd (he ▸ hc)
        have := Scanner.strip_eq (fun c => decide (c = '.')) ['.'] m [] (by simp)
          (fun c hc => decide_eq_false (hm' c (List.mem_of_mem_head? hc)))
          (fun c hc => decide_eq_false (hm' c (List.mem_of_mem_getLast? hc)))
        simpa using this
      have e2 : parse m = ⟨false, [m]⟩ := by
        have : toStr ⟨false, [m]⟩ = m := by simp [toStr, join]
        rw [← this]
        exact parse_toStr ⟨false, [m]⟩ (by intro c hc; rw [List.mem_singleton.1 hc]; exact hm)
      rw [e1, e2]
    rw [copiesOf, e]
    simp only [ih fun q hq => h q (List.mem_cons_of_mem _ hq)]
    rfl

theorem scanned_mem {files : Files} {names : Str → List Str → Prop} {ps : List PyPath} {ls : List SourcePath}
    (h : Scanned files names ps ls) (p : PyPath) (hp : p ∈ ps) (root dir : Path) (text : Str) (hpage : IsPage files p root dir text) :
    ∃ ns l, names text ns ∧ LeadTo files root dir ns l ∧ ∀ x ∈ l, x ∈ ls := by
  induction h with
  | nil => cases hp
  | page q r d t ns l ls ps h1 h2 h3 _ ih =>
    rcases List.mem_cons.1 hp with rfl | hp
    · obtain ⟨rfl, rfl, rfl⟩ := Scanner.page_unique files p _ _ _ _ _ _ h1 hpage
      exact ⟨ns, l, h2, h3, fun x hx => List.mem_append_left _ hx⟩
    · obtain ⟨ns', l', a, b, c⟩ := ih hp
      exact ⟨ns', l', a, b, fun x hx => List.mem_append_right _ (c x hx)⟩
  | other q ps ls h1 _ ih =>
    rcases List.mem_cons.1 hp with rfl | hp
    · exact absurd hpage (h1 _ _ _)
    · exact ih hp

theorem scanned_from {files : Files} {names : Str → List Str → Prop} {ps : List PyPath} {ls : List SourcePath}
    (h : Scanned files names ps ls) (x : SourcePath) (hx : x ∈ ls) :
    ∃ p ∈ ps, ∃ root dir text ns, IsPage files p root dir text ∧ names text ns ∧ ∃ n ∈ ns, LeadsTo files root dir n x := by
  induction h with
  | nil => cases hx
  | page q r d t ns l ls ps h1 h2 h3 _ ih =>
    rcases List.mem_append.1 hx with hx' | hx
    · refine ⟨q, List.mem_cons_self, r, d, t, ns, h1, h2, ?_⟩
      clear h1 h2 ih hx
      induction h3 with
      | nil => cases hx'
      | cons s p ss ps h _ ih' =>
        rcases List.mem_cons.1 hx' with rfl | hx'
        · exact ⟨s, List.mem_cons_self, h⟩
        · obtain ⟨n, hn, hl⟩ := ih' hx'
          exact ⟨n, List.mem_cons_of_mem _ hn, hl⟩
    · obtain ⟨p, hp, rest⟩ := ih hx
      exact ⟨p, List.mem_cons_of_mem _ hp, rest⟩
  | other q ps ls h1 _ ih =>
    obtain ⟨p, hp, rest⟩ := ih hx
    exact ⟨p, List.mem_cons_of_mem _ hp, rest⟩

theorem leadTo_mem {files : Files} {root dir : Path} {ns : List Str} {l : List SourcePath} (h : LeadTo files root dir ns l) (n : Str)
    (hn : n ∈ ns) : ∃ x ∈ l, LeadsTo files root dir n x := by
  induction h with
  | nil => cases hn
  | cons s p ss ps h _ ih =>
    rcases List.mem_cons.1 hn with rfl | hn
    · exact ⟨p, List.mem_cons_self, h⟩
    · obtain ⟨x, hx, hl⟩ := ih hn
      exact ⟨x, List.mem_cons_of_mem _ hx, hl⟩

/-- A link leads to a file below the root of its page. -/
theorem leads_sound {files : Files} {root dir : Path} {n : Str} {x : SourcePath} (h : LeadsTo files root dir n x) (hr : Good root)
    (hd : Good dir) (ha : dir.abs = false) : Sound x ∧ x.root = root ∧ (files x.full).isSome = true := by
  cases h with
  | dir a b rel t h1 h2 h3 h4 h5 =>
    have habs : (parse rel).abs = false := by simp only [parse, decide_eq_false_iff_not]; exact h3
    refine ⟨⟨hr, good_div _ _ hd (parse_good rel), ?_⟩, rfl, ?_⟩
    · rw [div, habs]; exact ha
    · show (files (div root (div dir (parse rel)))).isSome = true
      rw [h5]; rfl
  | root a b rel t h1 h2 h3 h4 h5 h6 =>
    have habs : (parse rel).abs = false := by simp only [parse, decide_eq_false_iff_not]; exact h3
    refine ⟨⟨hr, parse_good rel, habs⟩, rfl, ?_⟩
    · show (files (div root (parse rel))).isSome = true
      rw [h6]; rfl

theorem leads_stub {files : Files} {root : Path} {sp brk : Char → Bool} {stub text : Str} {names : List Str} {x : SourcePath}
    (hs : Stub sp brk stub text names) (h : LeadsTo files root ⟨false, []⟩ stub x) : x = ⟨root, ⟨false, names⟩⟩ := by
  have hp : parse text = ⟨false, names⟩ := by
    obtain ⟨h2, h3⟩ := Rewrite.slashed_eq hs.slashed
    have : toStr ⟨false, names⟩ = text := by simp [toStr, h2, h3]
    rw [← this]
    exact parse_toStr ⟨false, names⟩ hs.good
  have hrel : ∀ a rel b : Str, stub = a ++ rel ++ b → (∀ c ∈ a ++ b, c = '/') → rel.head? ≠ some '/' → rel.getLast? ≠ some '/' →
      rel = text := by
    intro a rel b h1 h2 h3 h4
    rw [← Rewrite.stub_strip hs, h1]
    exact (Scanner.strip_eq (fun c => decide (c = '/')) a rel b (fun c hc => decide_eq_true (h2 c hc)) ((Scanner.slash_iff _).2 h3)
      ((Scanner.slash_iff _).2 h4)).symm
  cases h with
  | dir a b rel t h1 h2 h3 h4 h5 =>
    rw [hrel a rel b h1 h2 h3 h4, hp]
    simp [div]
  | root a b rel t h1 h2 h3 h4 h5 h6 => rw [hrel a rel b h1 h2 h3 h4, hp]

theorem full_eq (p : SourcePath) (h : p.sub.abs = false) : p.full = ⟨p.root.abs, p.root.parts ++ p.sub.parts⟩ := by
  simp [SourcePath.full, div, h]

/-- What a renderer depends on, for templates in their own directories. -/
theorem infiles_from {sp : Char → Bool} {files : Files} {templates infiles : List SourcePath} (ht : ∀ p ∈ templates, IsTemplate p)
    (h : infilepaths sp files templates = .ok infiles) :
    (∀ x ∈ infiles, Sound x ∧ ∃ p ∈ templates, x.root = p.root ∧ (x ∈ templates ∨ ∃ text,
      IsPage files (.source p) p.root ⟨false, []⟩ text ∧ ∃ n ∈ stubs sp text, LeadsTo files p.root ⟨false, []⟩ n x)) ∧
    (infiles.map SourcePath.full).Nodup ∧
    ∀ p ∈ templates, ∀ text, IsPage files (.source p) p.root ⟨false, []⟩ text → ∀ n ∈ stubs sp text,
      ∃ x, LeadsTo files p.root ⟨false, []⟩ n x ∧ ∃ y ∈ infiles, y.full = x.full := by
  have hgood : ∀ q ∈ templates.map PyPath.source, GoodPy q := by
    intro q hq
    obtain ⟨p, hp, rfl⟩ := List.mem_map.1 hq
    obtain ⟨h1, n, h2, h3⟩ := ht p hp
    refine ⟨h1, ?_, by rw [h3]⟩
    rw [h3]; intro c hc; rw [List.mem_singleton.1 hc]; exact h2
  unfold infilepaths at h
  cases hs : scan sp files true (templates.map .source) with
  | error e => rw [hs] at h; cases h
  | ok found =>
    rw [hs] at h
    cases h
    have hsc := (Scanner.scan_iff sp files true (fun t l => stubs sp t = l) _ hgood (fun _ _ h => h) (fun _ _ _ _ t _ => ⟨_, rfl⟩)
      found).1 hs
    have hdir : ∀ p ∈ templates, ∀ root dir text, IsPage files (.source p) root dir text → root = p.root ∧ dir = ⟨false, []⟩ := by
      intro p hp root dir text hpg
      obtain ⟨_, _, ⟨s, e, h1, h2⟩ | ⟨s, e, _⟩⟩ := hpg
      · cases e
        obtain ⟨_, n, _, h4⟩ := ht p hp
        rw [h4] at h2
        exact ⟨h1, h2⟩
      · cases e
    refine ⟨?_, (Lists.uniqLoop_keys SourcePath.full [] _).1, ?_⟩
    · intro x hx
      have hx' := (Lists.uniqLoop_sublist SourcePath.full [] (templates ++ found)).subset hx
      rcases List.mem_append.1 hx' with hx' | hx'
      · obtain ⟨h1, n, h2, h3⟩ := ht x hx'
        refine ⟨⟨h1, ?_, by rw [h3]⟩, x, hx', rfl, .inl hx'⟩
        rw [h3]; intro c hc; rw [List.mem_singleton.1 hc]; exact h2
      · obtain ⟨q, hq, root, dir, text, ns, h1, h2, n, hn, hl⟩ := scanned_from hsc x hx'
        obtain ⟨p, hp, rfl⟩ := List.mem_map.1 hq
        obtain ⟨rfl, rfl⟩ := hdir p hp _ _ _ h1
        obtain ⟨a, b, _⟩ := leads_sound hl (ht p hp).1 (by intro c hc; cases hc) rfl
        subst h2
        exact ⟨a, p, hp, b, .inr ⟨text, h1, n, hn, hl⟩⟩
    · intro p hp text hpg n hn
      obtain ⟨ns, l, h1, h2, h3⟩ := scanned_mem hsc (.source p) (List.mem_map_of_mem hp) _ _ text hpg
      subst h1
      obtain ⟨x, hx, hl⟩ := leadTo_mem h2 n hn
      refine ⟨x, hl, ?_⟩
      rcases (Lists.uniqLoop_keys SourcePath.full [] (templates ++ found)).2.2 x (List.mem_append_right _ (h3 x hx)) with h | h
      · cases h
      · obtain ⟨y, hy, e⟩ := List.mem_map.1 h
        exact ⟨y, hy, e⟩

theorem notNested_eq {templates : List SourcePath} (hn : NotNested templates) (p q : SourcePath) (hp : p ∈ templates) (hq : q ∈ templates)
    (x y : SourcePath) (hx : x.root = p.root) (hy : y.root = q.root) (ax : x.sub.abs = false) (ay : y.sub.abs = false)
    (h : y.full = x.full) : y = x := by
  rw [full_eq x ax, full_eq y ay] at h
  obtain ⟨xr, xs⟩ := x
  obtain ⟨yr, ys⟩ := y
  simp only at hx hy ax ay h ⊢
  subst hx; subst hy
  injection h with h1 h2
  have : q.root = p.root := by
    rcases List.append_eq_append_iff.1 h2 with ⟨l, e, _⟩ | ⟨l, e, _⟩
    · exact hn q hq p hp h1 ⟨l, e.symm⟩
    · exact (hn p hp q hq h1.symm ⟨l, e.symm⟩).symm
  rw [this] at h2
  have h3 := List.append_cancel_left h2
  obtain ⟨xa, xl⟩ := xs
  obtain ⟨ya, yl⟩ := ys
  simp only at ax ay h3
  subst ax; subst ay; subst h3
  rw [this]

theorem wild_suffix (p : SourcePath) (names : List Str) (hp : p.sub = ⟨false, names⟩) (n : Str) (hn : names.getLast? = some n) :
    name p.full = n := by
  have : p.full = ⟨p.root.abs, p.root.parts ++ names⟩ := by rw [full_eq p (by rw [hp]), hp]
  rw [this]
  unfold name
  simp only
  rw [List.getLast?_append, hn]
  rfl

/-! ### Running the copies -/

variable {c : Cfg} {enc : Str → Bytes}

theorem copy_exists (w : World) (p out : Str) (hp : w.fs p ≠ none) :
    (CopyFile.copyBuild c enc w [.path p] out).2.fs out ≠ none ∧
    (w.fs out = none → (CopyFile.copyBuild c enc w [.path p] out).2.fs out = w.fs p) := by
  rcases CopyFile.status_eq (c := c) (enc := enc) w [.path p] out with ⟨h, hd⟩ | ⟨_, _, ⟨q, h1, h2⟩, _⟩ | ⟨_, _, _, h⟩
  · have hb : CopyFile.copyBuild c enc w [.path p] out = (.ok .done, w) := by
      rcases CopyFile.build_cases (c := c) (enc := enc) w [.path p] out with ⟨_, h'⟩ | ⟨h', _⟩ | ⟨h', _⟩ | ⟨h', _⟩
      · rw [h', hd]
      all_goals rw [hd] at h'; cases h'
    rw [hb]
    have : w.fs out ≠ none := by
      rcases h with h | h
      · unfold CopyFile.needed at h
        obtain ⟨⟨_, h⟩, _⟩ := Classical.not_not.1 h
        exact h out List.mem_cons_self
      · rw [CopyFile.copyParameters_single] at h
        have : p = out := by simpa [CopyFile.infilepaths] using h
        rw [← this]; exact hp
    exact ⟨this, fun h => absurd h this⟩
  · rw [CopyFile.mem_infilepaths, CopyFile.copyParameters_single, List.mem_singleton] at h1
    cases h1
    exact absurd h2 hp
  · obtain ⟨b, h1, _, h2, _⟩ := CopyFile.C68_copied (c := c) (enc := enc) w p [] out h
    rw [h2, h1]
    exact ⟨by simp, fun _ => rfl⟩

theorem run_append (w : World) (a b : List CopyFile.Op) : CopyFile.run c enc w (a ++ b) = CopyFile.run c enc (CopyFile.run c enc w a) b := by
  unfold CopyFile.run; rw [List.foldl_append]

theorem run_other (w : World) (cs : List Copy) (q : Str) (h : ∀ x ∈ cs, q ≠ toStr (Spec.Copy.dst x)) :
    (CopyFile.run c enc w (asOps cs)).fs q = w.fs q := by
  induction cs generalizing w with
  | nil => rfl
  | cons x cs ih =>
    show (CopyFile.run c enc _ (asOps cs)).fs q = _
    rw [ih _ fun y hy => h y (List.mem_cons_of_mem _ hy)]
    exact (CopyFile.C68_only_output (c := c) (enc := enc) w _ _ q (h x List.mem_cons_self)).1

end Verif.HtmlCopy
