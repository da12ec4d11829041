import Verif.Spec.OtherLink
import Verif.Props.Links
import Verif.Props.Targets
import Verif.Props.Assembly

/-!
# C87: links to the source and to other targets of a document
-/

namespace Verif.OtherLink

open Verif Verif.Paths
open Verif.Targets (Doc Tools EnvOk Project Wanted place buildersOf addTargetBuilders targetFilepath Impossible supported Table)

/-! ### Escaped text -/

theorem shown_escape (s : Str) : Shown (escape s) s := by
  induction s with
  | nil => exact .nil
  | cons c s ih =>
    have e : escape (c :: s) = escapeChar c ++ escape s := rfl
    rw [e]
    unfold escapeChar
    by_cases h1 : c = '&'
    · subst h1; rw [if_pos rfl]; exact .amp ih
    by_cases h2 : c = '>'
    · subst h2; rw [if_neg h1, if_pos rfl]; exact .gt ih
    by_cases h3 : c = '<'
    · subst h3; rw [if_neg h1, if_neg h2, if_pos rfl]; exact .lt ih
    by_cases h4 : c = '\''
    · subst h4; rw [if_neg h1, if_neg h2, if_neg h3, if_pos rfl]; exact .apos ih
    by_cases h5 : c = '"'
    · subst h5; rw [if_neg h1, if_neg h2, if_neg h3, if_neg h4, if_pos rfl]; exact .quot ih
    rw [if_neg h1, if_neg h2, if_neg h3, if_neg h4, if_neg h5]
    exact .plain c (by simp [h1, h2, h3, h4, h5]) ih

theorem escape_plain (s : Str) (h : ∀ c ∈ s, c ∉ ['&', '<', '>', '"', '\'']) : escape s = s := by
  induction s with
  | nil => rfl
  | cons c s ih =>
    have e : escape (c :: s) = escapeChar c ++ escape s := rfl
    have hc := h c (by simp)
    simp only [List.mem_cons, List.not_mem_nil, or_false, not_or] at hc
    rw [e, ih fun x hx => h x (List.mem_cons_of_mem _ hx)]
    unfold escapeChar
    rw [if_neg hc.1, if_neg hc.2.2.1, if_neg hc.2.1, if_neg hc.2.2.2.2, if_neg hc.2.2.2.1]
    rfl

/-- C87. A browser reads the text of an attribute in one way only. -/
theorem C87_shown {text link link' : Str} (h : Shown text link) (h' : Shown text link') : link = link' := by
  induction h generalizing link' with
  | nil => cases h'; rfl
  | plain c hc _ ih =>
    generalize hs : c :: _ = x at h'
    cases h' with
    | nil => cases hs
    | plain c' hc' h2 => cases hs; rw [ih h2]
    | amp | lt | gt | quot | apos => cases hs; exact absurd (by decide) hc
  | amp _ ih =>
    generalize hs : "&amp;".toList ++ _ = x at h'
    cases h' with
    | nil => cases hs
    | plain c' hc' h2 => cases hs; exact absurd (by decide) hc'
    | amp h2 => cases hs; rw [ih h2]
    | lt | gt | quot | apos => cases hs
  | lt _ ih =>
    generalize hs : "&lt;".toList ++ _ = x at h'
    cases h' with
    | nil => cases hs
    | plain c' hc' h2 => cases hs; exact absurd (by decide) hc'
    | lt h2 => cases hs; rw [ih h2]
    | amp | gt | quot | apos => cases hs
  | gt _ ih =>
    generalize hs : "&gt;".toList ++ _ = x at h'
    cases h' with
    | nil => cases hs
    | plain c' hc' h2 => cases hs; exact absurd (by decide) hc'
    | gt h2 => cases hs; rw [ih h2]
    | amp | lt | quot | apos => cases hs
  | quot _ ih =>
    generalize hs : "&#34;".toList ++ _ = x at h'
    cases h' with
    | nil => cases hs
    | plain c' hc' h2 => cases hs; exact absurd (by decide) hc'
    | quot h2 => cases hs; rw [ih h2]
    | amp | lt | gt | apos => cases hs
  | apos _ ih =>
    generalize hs : "&#39;".toList ++ _ = x at h'
    cases h' with
    | nil => cases hs
    | plain c' hc' h2 => cases hs; exact absurd (by decide) hc'
    | apos h2 => cases hs; rw [ih h2]
    | amp | lt | gt | quot => cases hs

/-! ### Files -/

variable {tools : Tools} {env : Env} {root : Doc} {subs : List Doc} {tb : Table}

theorem place_full (d : Doc) (dir : Path) (stem t : Str) (ha : Targets.At d dir stem) (ht : t ∈ d.targets) :
    (place env d dir stem t).full = fileOf env dir stem t := by
  simp [place, TargetPath.full, Paths.div, child, fileOf, ht, ha.rel]

theorem known_of (he : EnvOk env) (hp : Project root (root :: subs)) (h : addTargetBuilders tools env root subs = .ok tb)
    (d : Doc) (hd : d ∈ root :: subs) (t : Str) (ht : t ∈ d.targets) : t ∈ supported := by
  refine Classical.byContradiction fun hc => ?_
  have := (Targets.C56_impossible (tools := tools) he hp).1 (.inl ⟨d, hd, t, ht, hc⟩)
  rw [this] at h
  cases h

theorem listed_in (he : EnvOk env) (hp : Project root (root :: subs)) (h : addTargetBuilders tools env root subs = .ok tb)
    (d : Doc) (hd : d ∈ root :: subs) (dir : Path) (stem : Str) (ha : Targets.At d dir stem) (t : Str) (ht : t ∈ d.targets)
    (hroot : t = ".epub".toList → d = root) :
    listedFile ⟨d.targets, buildersOf tb d⟩ t = .ok (some (fileOf env dir stem t)) := by
  have hdot : dotted t = t := by unfold dotted; rw [if_pos (hp.dots d hd t ht)]
  have := (Targets.C56_target_filepath he hp h d hd dir stem ha t (place env d dir stem t)).2
    (by rw [hdot]; exact ⟨.inl ⟨ht, fun e => by rw [hroot e]⟩, rfl⟩)
  unfold listedFile
  rw [if_pos ht]
  simp only [this, place_full d dir stem t ha ht]

theorem listed_out (c : Targeted) (t : Str) (ht : t ∉ c.targets) : listedFile c t = .ok none := by
  unfold listedFile
  rw [if_neg ht]

theorem file_good (he : EnvOk env) (d : Doc) (dir : Path) (stem : Str) (ha : Targets.At d dir stem) (t : Str)
    (hk : t ∈ supported) : Good (fileOf env dir stem t) := by
  have h1 : IsName t.tail ∧ '/' ∉ t ∧ t.head? = some '.' ∧ t.length ≥ 2 := by
    revert t
    unfold IsName supported
    decide
  obtain ⟨n, e, -, hn, hs⟩ := ha.split
  have h2 : IsName (stem ++ t) := by
    refine splits_name n stem e t hs hn h1.2.1 (.inr h1.2.2.1) fun hc => ?_
    have := congrArg List.length hc
    simp only [List.length_append, List.length_cons, List.length_nil] at this
    have := h1.2.2.2
    omega
  intro c hc
  simp only [fileOf, List.mem_append, List.mem_cons, List.not_mem_nil, or_false] at hc
  rcases hc with (hc | rfl | hc) | rfl
  · exact he.root c hc
  · exact h1.1
  · exact ha.good c hc
  · exact h2

theorem file_ext (env : Env) (dir dir' : Path) (stem stem' t t' : Str) (ht : t ∈ supported) (ht' : t' ∈ supported)
    (h : fileOf env dir stem t = fileOf env dir' stem' t') : t = t' := by
  have h := congrArg Path.parts h
  simp only [fileOf, List.append_assoc] at h
  have h := List.append_cancel_left h
  simp only [List.cons_append, List.cons.injEq] at h
  have key : ∀ x ∈ supported, x = '.' :: x.tail := by unfold supported; decide
  rw [key t ht, key t' ht', h.1]

theorem source_full (s : SourcePath) (h : s.sub.abs = false) : s.full = sourceOf s := by
  simp [SourcePath.full, Paths.div, sourceOf, h]

theorem leads (cwd : List Str) (hcwd : ∀ c ∈ cwd, IsName c) (page file : Path) (hp : Good page) (hf : Good file)
    (hne : page.parts ≠ []) :
    Links.relpath cwd file (parent page) ≠ [] ∧ LeadsTo cwd page (Links.relpath cwd file (parent page)) file := by
  have hpar : Good (parent page) := fun c hc => hp c (List.dropLast_subset _ hc)
  obtain ⟨names, n1, n2, n3, n4⟩ := Links.relpath_slashed cwd file (parent page) hcwd hf hpar
  rw [n3]
  have hsl := Links.slashed_join names n1 (fun n h => (n2 n h).2)
  refine ⟨fun h0 => ?_, page.parts.dropLast, names, page.parts.getLast?.getD [], _, _, ?_, Links.absParts_at cwd (parent page) hcwd hpar,
    Links.absParts_at cwd file hcwd hf, hsl, n4⟩
  · rw [h0] at hsl
    generalize hx : ([] : Str) = x at hsl
    cases hsl with
    | one _ _ => exact (n2 x (by simp)).1 hx.symm
    | cons a r l _ _ => cases a <;> cases hx
  · rw [List.getLast?_eq_some_getLast hne, Option.getD_some, List.dropLast_concat_getLast]

theorem LeadsTo.one {page file file' : Path} {link : Str} (h : LeadsTo [] page link file) (h' : LeadsTo [] page link file')
    (hf : Good file) (hf' : Good file') : Links.absParts [] file = Links.absParts [] file' := by
  obtain ⟨dir, names, n, d, e, a1, a2, a3, a4, a5⟩ := h
  obtain ⟨dir', names', n', d', e', b1, b2, b3, b4, b5⟩ := h'
  obtain ⟨rfl, _⟩ := List.append_inj' (a1.symm.trans b1) rfl
  obtain rfl := Links.Walk.det a2 b2
  obtain rfl := a4.det b4
  obtain rfl := Links.Walk.det a5 b5
  exact (Links.Walk.det (Links.absParts_at [] file (by simp) hf) a3).trans (Links.Walk.det b3 (Links.absParts_at [] file' (by simp) hf'))

/-- The file of the page and that of the link, as the tag finds them. -/
theorem found (he : EnvOk env) (hp : Project root (root :: subs)) (h : addTargetBuilders tools env root subs = .ok tb)
    (d : Doc) (hd : d ∈ root :: subs) (dir : Path) (stem : Str) (ha : Targets.At d dir stem) (rdir : Path) (rstem : Str)
    (hr : Targets.At root rdir rstem) (this : Str) (hthis : this ∈ supported) (hne : this ≠ ".epub".toList) (k : Kind) (hk : k ≠ .target ".epub".toList)
    (cwd : List Str) :
    (HasLink env root d dir stem this k → this ∈ d.targets ∧
      otherRelpath cwd (some (ctxOf tb root d)) k this =
        .ok (escape (Links.relpath cwd (destOf env rdir rstem d dir stem k) (parent (fileOf env dir stem this)))) ∧
      (k = .src ∨ ∃ d' dir' stem' t, Targets.At d' dir' stem' ∧ t ∈ supported ∧ destOf env rdir rstem d dir stem k = fileOf env dir' stem' t)) ∧
    (¬ HasLink env root d dir stem this k → otherRelpath cwd (some (ctxOf tb root d)) k this = .ok []) := by
  have hsrc : d.src.full = sourceOf d.src := by
    obtain ⟨n, e, h1, -, -⟩ := ha.split
    exact source_full d.src (by rw [h1]; exact ha.rel)
  by_cases hin : this ∈ d.targets
  · have hT : thisFile (some (ctxOf tb root d)) this = .ok (some (fileOf env dir stem this)) :=
      listed_in he hp h d hd dir stem ha this hin (fun e => absurd e hne)
    cases k with
    | src =>
      have hO : otherFile (some (ctxOf tb root d)) .src = .ok (some (sourceOf d.src)) := by
        show Except.ok (some d.src.full) = _
        rw [hsrc]
      constructor
      · rintro ⟨-, h2⟩
        refine ⟨hin, ?_, .inl rfl⟩
        simp only [otherRelpath, hT, hO]
        rw [if_neg (fun e => h2 e.symm)]
        rfl
      · intro hno
        simp only [otherRelpath, hT, hO]
        rw [if_pos]
        exact Classical.byContradiction fun hc => hno ⟨hin, fun e => hc e.symm⟩
    | target t =>
      by_cases ht : t ∈ d.targets
      · have hO : otherFile (some (ctxOf tb root d)) (.target t) = .ok (some (fileOf env dir stem t)) :=
          listed_in he hp h d hd dir stem ha t ht (fun e => absurd (by rw [e]) hk)
        have hkt := known_of he hp h d hd t ht
        constructor
        · rintro ⟨-, -, h2⟩
          refine ⟨hin, ?_, .inr ⟨d, dir, stem, t, ha, hkt, rfl⟩⟩
          simp only [otherRelpath, hT, hO]
          rw [if_neg (fun e => h2 (file_ext env _ _ _ _ _ _ hthis hkt e).symm)]
          rfl
        · intro hno
          simp only [otherRelpath, hT, hO]
          rw [if_pos]
          have : t = this := Classical.byContradiction fun hc => hno ⟨hin, ht, hc⟩
          rw [this]
      · have hO : otherFile (some (ctxOf tb root d)) (.target t) = .ok none := listed_out _ t ht
        refine ⟨fun h2 => absurd h2.2.1 ht, fun _ => ?_⟩
        simp only [otherRelpath, hT, hO]
    | epub =>
      by_cases ht : ".epub".toList ∈ root.targets
      · have hO : otherFile (some (ctxOf tb root d)) .epub = .ok (some (fileOf env rdir rstem ".epub".toList)) :=
          listed_in he hp h root (by simp) rdir rstem hr _ ht (fun _ => rfl)
        have hkt := known_of he hp h root (by simp) _ ht
        refine ⟨fun _ => ⟨hin, ?_, .inr ⟨root, rdir, rstem, _, hr, hkt, rfl⟩⟩, fun hno => absurd ⟨hin, ht⟩ hno⟩
        simp only [otherRelpath, hT, hO]
        rw [if_neg (fun e => hne (file_ext env _ _ _ _ _ _ hthis hkt e))]
        rfl
      · have hO : otherFile (some (ctxOf tb root d)) .epub = .ok none := listed_out _ _ ht
        refine ⟨fun h2 => absurd h2.2 ht, fun _ => ?_⟩
        simp only [otherRelpath, hT, hO]
  · have hT : thisFile (some (ctxOf tb root d)) this = .ok none := listed_out _ this hin
    have hO : ∃ o, otherFile (some (ctxOf tb root d)) k = .ok o := by
      cases k with
      | src => exact ⟨_, rfl⟩
      | target t =>
        by_cases ht : t ∈ d.targets
        · exact ⟨_, listed_in he hp h d hd dir stem ha t ht (fun e => absurd (by rw [e]) hk)⟩
        · exact ⟨_, listed_out _ t ht⟩
      | epub =>
        by_cases ht : ".epub".toList ∈ root.targets
        · exact ⟨_, listed_in he hp h root (by simp) rdir rstem hr _ ht (fun _ => rfl)⟩
        · exact ⟨_, listed_out _ _ ht⟩
    obtain ⟨o, hO⟩ := hO
    refine ⟨fun h2 => ?_, fun _ => ?_⟩
    · cases k <;> exact absurd h2.1 hin
    · simp only [otherRelpath, hT, hO]

theorem dest_good (he : EnvOk env) (d : Doc) (dir : Path) (stem : Str) (ha : Targets.At d dir stem) (hsrc : Good d.src.root)
    (rdir : Path) (rstem : Str) (k : Kind)
    (h : k = .src ∨ ∃ d' dir' stem' t, Targets.At d' dir' stem' ∧ t ∈ supported ∧ destOf env rdir rstem d dir stem k = fileOf env dir' stem' t) :
    Good (destOf env rdir rstem d dir stem k) := by
  rcases h with rfl | ⟨d', dir', stem', t, h1, h2, h3⟩
  · obtain ⟨n, e, h1, hn, -⟩ := ha.split
    intro c hc
    simp only [destOf, sourceOf, h1, child, List.mem_append, List.mem_cons, List.not_mem_nil, or_false] at hc
    rcases hc with hc | hc | rfl
    · exact hsrc c hc
    · exact ha.good c hc
    · exact hn
  · rw [h3]; exact file_good he d' dir' stem' h1 t h2

/-- C87. In the HTML page of a document, a link to its source, to another of its targets or to the `.epub` of the project leads to
that file, with the names of the files as they are, if the targets are listed. -/
theorem C87_html (he : EnvOk env) (hp : Project root (root :: subs)) (h : addTargetBuilders tools env root subs = .ok tb)
    (d : Doc) (hd : d ∈ root :: subs) (dir : Path) (stem : Str) (ha : Targets.At d dir stem) (hsrc : Good d.src.root)
    (rdir : Path) (rstem : Str) (hr : Targets.At root rdir rstem) (k : Kind) (hk : k ≠ .target ".epub".toList)
    (cwd : List Str) (hcwd : ∀ c ∈ cwd, IsName c) (hl : HasLink env root d dir stem ".html".toList k) :
    ∃ text link, format cwd (some (ctxOf tb root d)) k .html = .ok text ∧ Shown text link ∧ link ≠ [] ∧
      LeadsTo cwd (fileOf env dir stem ".html".toList) link (destOf env rdir rstem d dir stem k) := by
  obtain ⟨h1, h2, h3⟩ := (found he hp h d hd dir stem ha rdir rstem hr ".html".toList (by decide) (by decide) k hk cwd).1 hl
  obtain ⟨l1, l2⟩ := leads cwd hcwd _ _ (file_good he d dir stem ha ".html".toList (by decide))
    (dest_good he d dir stem ha hsrc rdir rstem k h3) (by simp [fileOf])
  exact ⟨_, _, h2, shown_escape _, l1, l2⟩

/-- C87. There is no link if the document has no page of the format, if the other target is not listed, or if the file is the page
itself; then the text is empty, and no exception is raised. -/
theorem C87_no_link (he : EnvOk env) (hp : Project root (root :: subs)) (h : addTargetBuilders tools env root subs = .ok tb)
    (d : Doc) (hd : d ∈ root :: subs) (dir : Path) (stem : Str) (ha : Targets.At d dir stem)
    (k : Kind) (hk : k ≠ .target ".epub".toList) (cwd : List Str) :
    (¬ HasLink env root d dir stem ".html".toList k → format cwd (some (ctxOf tb root d)) k .html = .ok []) ∧
    (¬ HasLink env root d dir stem ".tex".toList k → format cwd (some (ctxOf tb root d)) k .tex = .ok []) ∧
    (∀ ctx, format cwd ctx k .default = .ok []) := by
  obtain ⟨rdir, rstem, hr⟩ := hp.at_ root (by simp)
  exact ⟨(found he hp h d hd dir stem ha rdir rstem hr ".html".toList (by decide) (by decide) k hk cwd).2,
    (found he hp h d hd dir stem ha rdir rstem hr ".tex".toList (by decide) (by decide) k hk cwd).2, fun _ => rfl⟩

/-- C87. Without a context there is no link; without a source path there is no link to the source, and without a root document none to
the `.epub`. -/
theorem C87_no_context (k : Kind) (cwd : List Str) :
    format cwd none k .html = .ok [] ∧ format cwd none k .tex = .ok [] ∧
    ∀ c : Ctx, (∀ t ∈ c.own.targets, targetFilepath c.own.builders t ≠ none) →
      (k = .src ∧ c.src = none ∨ k = .epub ∧ c.root = none) →
      format cwd (some c) k .html = .ok [] ∧ format cwd (some c) k .tex = .ok [] := by
  refine ⟨rfl, rfl, fun c hc hk => ?_⟩
  have hT : ∀ t, ∃ p, thisFile (some c) t = .ok p := by
    intro t
    simp only [thisFile, listedFile]
    by_cases ht : t ∈ c.own.targets
    · rw [if_pos ht]
      cases hf : targetFilepath c.own.builders t with
      | none => exact absurd hf (hc t ht)
      | some p => exact ⟨_, rfl⟩
    · exact ⟨none, if_neg ht⟩
  have hO : otherFile (some c) k = .ok none := by
    rcases hk with ⟨rfl, h⟩ | ⟨rfl, h⟩
    · simp only [otherFile, h]; rfl
    · simp only [otherFile, h]
  have hR : ∀ t, otherRelpath cwd (some c) k t = .ok [] := by
    intro t
    obtain ⟨p, hp⟩ := hT t
    simp only [otherRelpath, hp, hO]
  exact ⟨hR _, hR _⟩

theorem relpath_plain (cwd : List Str) (file start : Path) (S : List Char) (hdot : '.' ∉ S) (hslash : '/' ∉ S)
    (hc : ∀ n ∈ cwd, ∀ c ∈ n, c ∉ S) (hf : ∀ n ∈ file.parts, ∀ c ∈ n, c ∉ S) :
    ∀ c ∈ Links.relpath cwd file start, c ∉ S := by
  have hparts : ∀ n ∈ Links.absParts cwd file, ∀ c ∈ n, c ∉ S := by
    intro n hn
    rcases Links.norm_mem _ _ n hn with h | h
    · rw [List.mem_append] at h
      rcases h with h | h
      · split at h
        · simp at h
        · exact hc n h
      · exact hf n h
    · simp at h
  have hrp := Links.relParts_mem (Links.absParts cwd start) (Links.absParts cwd file)
  have hall : ∀ n ∈ Links.relParts (Links.absParts cwd start) (Links.absParts cwd file), ∀ c ∈ n, c ∉ S := by
    intro n hn c hc
    rcases hrp n hn with rfl | h
    · simp only [List.mem_cons, List.not_mem_nil, or_false, or_self] at hc
      rw [hc]; exact hdot
    · exact hparts n h c hc
  have hjoin : ∀ l : List Str, (∀ n ∈ l, ∀ c ∈ n, c ∉ S) → ∀ c ∈ join ['/'] l, c ∉ S := by
    intro l
    induction l with
    | nil => intro _ c hc; simp [join] at hc
    | cons a l ih =>
      intro hl c hc
      cases l with
      | nil => exact hl a (by simp) c (by simpa [join] using hc)
      | cons b l =>
        simp only [join, List.mem_append, List.mem_cons, List.not_mem_nil, or_false] at hc
        rcases hc with (hc | rfl) | hc
        · exact hl a (by simp) c hc
        · exact hslash
        · exact ih (fun n hn => hl n (List.mem_cons_of_mem _ hn)) c hc
  unfold Links.relpath
  generalize Links.relParts (Links.absParts cwd start) (Links.absParts cwd file) = rp at hall
  cases rp with
  | nil => intro c hc; simp only [List.mem_cons, List.not_mem_nil, or_false] at hc; rw [hc]; exact hdot
  | cons a l => exact hjoin (a :: l) hall

/-- C87. In the `.tex` file of a document the link leads to the file as well, if no name has a character that is escaped in HTML.
Missing: names with such a character, for which the link is wrong, see `C87_tex_refuted`. -/
theorem C87_tex_partial (he : EnvOk env) (hp : Project root (root :: subs)) (h : addTargetBuilders tools env root subs = .ok tb)
    (d : Doc) (hd : d ∈ root :: subs) (dir : Path) (stem : Str) (ha : Targets.At d dir stem) (hsrc : Good d.src.root)
    (rdir : Path) (rstem : Str) (hr : Targets.At root rdir rstem) (k : Kind) (hk : k ≠ .target ".epub".toList)
    (cwd : List Str) (hcwd : ∀ c ∈ cwd, IsName c) (hl : HasLink env root d dir stem ".tex".toList k)
    (hc : ∀ n ∈ cwd, ∀ c ∈ n, c ∉ ['&', '<', '>', '"', '\''])
    (hn : ∀ n ∈ (destOf env rdir rstem d dir stem k).parts, ∀ c ∈ n, c ∉ ['&', '<', '>', '"', '\'']) :
    ∃ link, format cwd (some (ctxOf tb root d)) k .tex = .ok link ∧ link ≠ [] ∧
      LeadsTo cwd (fileOf env dir stem ".tex".toList) link (destOf env rdir rstem d dir stem k) := by
  obtain ⟨h1, h2, h3⟩ := (found he hp h d hd dir stem ha rdir rstem hr ".tex".toList (by decide) (by decide) k hk cwd).1 hl
  obtain ⟨l1, l2⟩ := leads cwd hcwd _ _ (file_good he d dir stem ha ".tex".toList (by decide))
    (dest_good he d dir stem ha hsrc rdir rstem k h3) (by simp [fileOf])
  rw [escape_plain _ (relpath_plain cwd _ _ _ (by decide) (by decide) hc hn)] at h2
  exact ⟨_, h2, l1, l2⟩

/-! ### Cases -/

open Verif.Targets (docA docB docC envA envA_ok project_abc)

def docE : Doc := ⟨⟨parse "/p/src".toList, parse "sub/q&a.dm".toList⟩, [".html".toList, ".tex".toList, ".txt".toList]⟩

theorem linksOf_docE : ∀ tb, addTargetBuilders ⟨true, true⟩ envA docA [docE] = .ok tb →
    format [] (some (ctxOf tb docA docE)) (.target ".txt".toList) .html = .ok "../../txt/sub/q&amp;a.txt".toList ∧
    format [] (some (ctxOf tb docA docE)) .src .html = .ok "../../src/sub/q&amp;a.dm".toList ∧
    format [] (some (ctxOf tb docA docE)) .epub .html = .ok "../../epub/a.epub".toList ∧
    format [] (some (ctxOf tb docA docE)) (.target ".pdf".toList) .html = .ok [] ∧
    format [] (some (ctxOf tb docA docA)) (.target ".tex".toList) .html = .ok [] ∧
    format [] (some (ctxOf tb docA docA)) (.target ".pdf".toList) .html = .ok "../pdf/a.pdf".toList := by
  intro tb h
  cases h
  decide +kernel

/-- C87. In a `.tex` file the link is escaped for HTML, so it does not lead to a file with `&` in its name. -/
theorem C87_tex_refuted : ∀ tb, addTargetBuilders ⟨true, true⟩ envA docA [docE] = .ok tb →
    format [] (some (ctxOf tb docA docE)) (.target ".txt".toList) .tex = .ok "../../txt/sub/q&amp;a.txt".toList ∧
    ¬ LeadsTo [] (fileOf envA ⟨false, ["sub".toList]⟩ "q&a".toList ".tex".toList) "../../txt/sub/q&amp;a.txt".toList
      (fileOf envA ⟨false, ["sub".toList]⟩ "q&a".toList ".txt".toList) := by
  intro tb h
  cases h
  refine ⟨by decide +kernel, fun hL => ?_⟩
  have hg : ∀ x ∈ ["q&a".toList, "q&amp;a".toList], ∀ t ∈ [".tex".toList, ".txt".toList],
      Good (fileOf envA ⟨false, ["sub".toList]⟩ x t) := by
    unfold Good IsName
    decide +kernel
  have hL' := (leads [] (by simp) (fileOf envA ⟨false, ["sub".toList]⟩ "q&a".toList ".tex".toList)
    (fileOf envA ⟨false, ["sub".toList]⟩ "q&amp;a".toList ".txt".toList) (hg _ (by simp) _ (by simp)) (hg _ (by simp) _ (by simp))
    (by simp [fileOf])).2
  have e : Links.relpath [] (fileOf envA ⟨false, ["sub".toList]⟩ "q&amp;a".toList ".txt".toList)
    (parent (fileOf envA ⟨false, ["sub".toList]⟩ "q&a".toList ".tex".toList)) = "../../txt/sub/q&amp;a.txt".toList := by decide +kernel
  rw [e] at hL'
  have := hL.one hL' (hg _ (by simp) _ (by simp)) (hg _ (by simp) _ (by simp))
  revert this
  decide +kernel

/-- C87. For the `.xhtml` pages of an `.epub` the tags cannot be used. -/
theorem C87_xhtml_refuted (cwd : List Str) (ctx : Option Ctx) (k : Kind) : format cwd ctx k .xhtml = .error .notImplemented := rfl

theorem project_ae : Project docA [docA, docE] where
  root_mem := by simp
  distinct := by decide
  at_ := by
    intro d hd
    simp only [List.mem_cons, List.not_mem_nil, or_false] at hd
    rcases hd with rfl | rfl
    · exact ⟨⟨false, []⟩, "a".toList, by simp [Good], rfl, "a.dm".toList, "dm".toList, rfl, by unfold IsName; decide,
        .inl (by decide)⟩
    · exact ⟨⟨false, ["sub".toList]⟩, "q&a".toList, by unfold Good IsName; decide, rfl, "q&a.dm".toList, "dm".toList, rfl,
        by unfold IsName; decide, .inl (by decide)⟩
  dots := by decide

example : HasLink envA docA docE ⟨false, ["sub".toList]⟩ "q&a".toList ".html".toList (.target ".txt".toList) ∧
    HasLink envA docA docE ⟨false, ["sub".toList]⟩ "q&a".toList ".html".toList .src ∧
    HasLink envA docA docE ⟨false, ["sub".toList]⟩ "q&a".toList ".html".toList .epub ∧
    ¬ HasLink envA docA docA ⟨false, []⟩ "a".toList ".html".toList (.target ".tex".toList) := by
  unfold HasLink
  decide +kernel

end Verif.OtherLink
