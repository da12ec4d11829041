import Verif.Lemmas.Links
import Verif.Lemmas.Paths
import Verif.Props.Labels
import Verif.Props.Document

/-!
# C54: references lead to what they name
-/

namespace Verif.Links

open Verif Verif.Paths Verif.Labels

/-! ### Relative links -/

theorem fileOf_full (t : TargetPath) (h : GoodPy (.target t)) : FileOf t t.full ∧ Good t.full := by
  obtain ⟨root, target, sub⟩ := t
  obtain ⟨h1, h2, h3, h4, h5⟩ := h
  simp only at h1 h2 h3 h4 h5
  have e : TargetPath.full ⟨root, target, sub⟩ = ⟨root.abs, root.parts ++ target.parts ++ sub.parts⟩ := by
    simp [TargetPath.full, div, h4, h5.1]
  refine ⟨by rw [e]; exact .mk _ _ _ h5.1 h4, ?_⟩
  rw [e]
  intro c hc
  simp only [List.mem_append] at hc
  rcases hc with (hc | hc) | hc
  · exact h1 c hc
  · exact h2 c hc
  · exact h3 c hc

theorem fileOf_det {t : TargetPath} {p p' : Path} (h : FileOf t p) (h' : FileOf t p') : p = p' := by
  cases h; cases h'; rfl

theorem relpath_slashed (cwd : List Str) (path start : Path) (hcwd : ∀ c ∈ cwd, IsName c) (hp : Good path)
    (hs : Good start) : ∃ names, names ≠ [] ∧ (∀ n ∈ names, n ≠ [] ∧ '/' ∉ n) ∧ relpath cwd path start = join ['/'] names ∧
      Walk (absParts cwd start) names (absParts cwd path) := by
  have hn := absParts_names cwd path hcwd hp
  have hw := relParts_walk (absParts cwd start) (absParts cwd path) (fun n h => ⟨(hn n h).1.2.1, (hn n h).2⟩)
  have hm := relParts_names (absParts cwd start) (absParts cwd path) (fun n => n ≠ [] ∧ '/' ∉ n) (by decide)
    (fun n h => ⟨(hn n h).1.1, (hn n h).1.2.2⟩)
  unfold relpath
  cases hr : relParts (absParts cwd start) (absParts cwd path) with
  | nil =>
    rw [hr] at hw
    exact ⟨[['.']], by simp, by decide, rfl, .stay hw⟩
  | cons a l =>
    rw [hr] at hw hm
    exact ⟨a :: l, by simp, hm, rfl, hw⟩

/-- C54. With relative links, the link from a page of a document to a file leads to the file: read in the directory of
the page it names the file, wherever the two are, also with `..` in their paths. `files` gives the pages of the document,
`t` is the target directory of the file (like `html`), and `page` the page of the document in the same target. -/
theorem C54_link_leads (cwd : List Str) (hcwd : ∀ c ∈ cwd, IsName c) (page file : TargetPath)
    (hp : GoodPy (.target page)) (hf : GoodPy (.target file)) (hname : page.sub.parts ≠ [])
    (ctx : Ctx) (hrel : ctx.relative ≠ some false) (files : Files) (hdoc : ctx.document = some files)
    (t : Str) (ht : file.target = ⟨false, [t]⟩) (htd : t.head? ≠ some '.')
    (hpage : files ('.' :: t) = .ok (some page)) :
    ∃ link, getUrl cwd file (some ctx) none = .ok link ∧ Leads cwd page link file := by
  obtain ⟨p1, p2⟩ := fileOf_full page hp
  obtain ⟨f1, f2⟩ := fileOf_full file hf
  have hpar : Good (parent page.full) := fun c hc => p2 c (List.dropLast_subset _ hc)
  obtain ⟨names, n1, n2, n3, n4⟩ := relpath_slashed cwd file.full (parent page.full) hcwd f2 hpar
  have hto : targetName file none = t := by simp [targetName, ht, toStr, join]
  have hr : relativeUrl cwd file ctx none = .ok (some (join ['/'] names)) := by
    simp only [relativeUrl, hdoc, hto, withDot, if_neg htd, hpage, n3]
  have hg : getUrl cwd file (some ctx) none = .ok (join ['/'] names) := by
    have hb : ctx.relative.getD true = true := by
      cases hc : ctx.relative with
      | none => rfl
      | some b => cases b <;> simp_all
    simp only [getUrl, hb, if_true, hr]
    show Except.ok (dblSlash none (rstrip (· = '/') (join ['/'] names))) = _
    rw [cleanup_join names n1 n2]
  refine ⟨_, hg, page.full, file.full, page.full.parts.dropLast, names, page.full.parts.getLast?.getD [], _, _, p1, f1, ?_, ?_,
    absParts_at cwd file.full hcwd f2, slashed_join names n1 (fun n h => (n2 n h).2), n4⟩
  · have : page.full.parts ≠ [] := by
      generalize page.full = q at p1
      cases p1 with
      | mk root target sub _ _ =>
        intro h
        rw [List.append_eq_nil_iff] at h
        exact hname h.2
    rw [List.getLast?_eq_some_getLast this, Option.getD_some, List.dropLast_concat_getLast]
  · exact absParts_at cwd (parent page.full) hcwd hpar

/-- C54. A link leads to one place only: two files that the same link of a page leads to are at the same place. -/
theorem C54_one_place (cwd : List Str) (page : TargetPath) (link : Str) (file file' : TargetPath)
    (h : Leads cwd page link file) (h' : Leads cwd page link file') :
    ∃ f f' e, FileOf file f ∧ FileOf file' f' ∧ At cwd f e ∧ At cwd f' e := by
  obtain ⟨p, f, dir, names, n, d, e, a1, a2, a3, a4, a5, a6, a7⟩ := h
  obtain ⟨p', f', dir', names', n', d', e', b1, b2, b3, b4, b5, b6, b7⟩ := h'
  obtain rfl := fileOf_det a1 b1
  obtain ⟨rfl, _⟩ := List.append_inj' (a3.symm.trans b3) rfl
  obtain rfl := a4.det b4
  obtain rfl := a6.det b6
  obtain rfl := a7.det b7
  exact ⟨f, f', e, a2, b2, a5, b5⟩

/-! ### References -/

/-- C54. A reference to a label of the same document is the anchor of the label; a reference to the own document as a
whole is the empty link. -/
theorem C54_same_document (cwd : List Str) (m : Manager) (env : Labels.Env) (sep : Str) (doc : Str) (ctx : Ctx)
    (docs : Dict Str Files) (id target : Str) (l : Label) (hl : (m.getLabel env sep id).2 = some l)
    (hd : l.docId = doc) :
    refLink cwd m env sep (some doc) ctx docs id target = .ok (some (if l.content then '#' :: l.id else [])) := by
  simp [refLink, hl, refUrl, hd]

/-- C54. A reference to a label of another document leads to the page of that document, and its anchor is the label; a
reference to another document as a whole has no anchor. `target` is `html` or `.html`. -/
theorem C54_other_document (cwd : List Str) (hcwd : ∀ c ∈ cwd, IsName c) (m : Manager) (env : Labels.Env) (sep : Str)
    (doc : Str) (ctx : Ctx) (hrel : ctx.relative ≠ some false) (docs : Dict Str Files) (id : Str) (l : Label)
    (hl : (m.getLabel env sep id).2 = some l) (hd : l.docId ≠ doc)
    (own other : Files) (hown : ctx.document = some own) (hother : docs.get? l.docId = some other)
    (t : Str) (htd : t.head? ≠ some '.') (target : Str) (htarget : target = t ∨ target = '.' :: t)
    (page file : TargetPath) (hp : GoodPy (.target page)) (hf : GoodPy (.target file)) (hname : page.sub.parts ≠ [])
    (ht : file.target = ⟨false, [t]⟩) (hpage : own ('.' :: t) = .ok (some page)) (hfile : other ('.' :: t) = .ok (some file)) :
    ∃ link, Leads cwd page link file ∧
      refLink cwd m env sep (some doc) ctx docs id target = .ok (some (link ++ if l.content then '#' :: l.id else [])) := by
  obtain ⟨link, h1, h2⟩ := C54_link_leads cwd hcwd page file hp hf hname ctx hrel own hown t ht htd hpage
  refine ⟨link, h2, ?_⟩
  have hw : withDot target = '.' :: t := by
    rcases htarget with rfl | rfl
    · rw [withDot, if_neg htd]
    · rfl
  have hne : ¬ some doc = some l.docId := fun h => hd (Option.some.inj h).symm
  simp only [refLink, hl, refUrl, if_neg (Ne.symm hd), refDocument, if_neg hne, hother, hw, hfile, h1]
  cases l.content <;> simp

theorem Slashed.not_mem {s : Str} {l : List Str} (h : Slashed s l) (c : Char) (hc : c ≠ '/') (hl : ∀ n ∈ l, c ∉ n) :
    c ∉ s := by
  induction h with
  | one s _ => exact hl s (List.mem_cons_self ..)
  | cons s r l _ _ ih =>
    simp only [List.mem_append, List.mem_cons, not_or]
    exact ⟨hl s (List.mem_cons_self ..), hc, ih (fun n hn => hl n (List.mem_cons_of_mem _ hn))⟩

theorem relParts_mem (s p : List Str) : ∀ n ∈ relParts s p, n = ['.', '.'] ∨ n ∈ p := by
  intro n hn
  unfold relParts at hn
  rw [List.mem_append] at hn
  rcases hn with hn | hn
  · exact Or.inl (List.mem_replicate.1 hn).2
  · exact Or.inr (List.mem_of_mem_drop hn)

theorem norm_mem (l d : List Str) : ∀ n ∈ l.foldl normStep d, n ∈ l ∨ n ∈ d := by
  induction l generalizing d with
  | nil => intro n hn; exact Or.inr hn
  | cons c l ih =>
    intro n hn
    rw [List.foldl_cons] at hn
    rcases ih _ n hn with h | h
    · exact Or.inl (List.mem_cons_of_mem _ h)
    · unfold normStep at h
      split at h
      · exact Or.inr (List.dropLast_subset _ h)
      · rw [List.mem_append, List.mem_singleton] at h
        rcases h with h | rfl
        · exact Or.inr h
        · exact Or.inl (List.mem_cons_self ..)

/-- C54 (partial). A browser cuts a link at its first `#`, so it finds the page and the anchor if the names on the way to
the file have no `#`. Missing: the code does not quote `#` (nor `?` and `%`) in the names of files, see
`C54_hash_in_name`. -/
theorem C54_anchor_partial (cwd : List Str) (hcwd : ∀ c ∈ cwd, IsName c) (page file : TargetPath)
    (hp : GoodPy (.target page)) (hf : GoodPy (.target file)) (hname : page.sub.parts ≠ [])
    (ctx : Ctx) (hrel : ctx.relative ≠ some false) (files : Files) (hdoc : ctx.document = some files)
    (t : Str) (ht : file.target = ⟨false, [t]⟩) (htd : t.head? ≠ some '.')
    (hpage : files ('.' :: t) = .ok (some page))
    (hc : ∀ n ∈ cwd, '#' ∉ n) (hs : ∀ n ∈ file.root.parts ++ file.target.parts ++ file.sub.parts, '#' ∉ n) (id : Str) :
    ∃ link, getUrl cwd file (some ctx) none = .ok link ∧ Leads cwd page link file ∧
      Parts link link none ∧ Parts (link ++ '#' :: id) link (some id) := by
  obtain ⟨link, h1, h2⟩ := C54_link_leads cwd hcwd page file hp hf hname ctx hrel files hdoc t ht htd hpage
  have hm : '#' ∉ link := by
    have hto : targetName file none = t := by simp [targetName, ht, toStr, join]
    obtain ⟨p1, p2⟩ := fileOf_full page hp
    obtain ⟨f1, f2⟩ := fileOf_full file hf
    have hpar : Good (parent page.full) := fun c hc => p2 c (List.dropLast_subset _ hc)
    obtain ⟨names, n1, n2, n3, n4⟩ := relpath_slashed cwd file.full (parent page.full) hcwd f2 hpar
    have hb : ctx.relative.getD true = true := by
      cases hc : ctx.relative with
      | none => rfl
      | some b => cases b <;> simp_all
    have hr : relativeUrl cwd file ctx none = .ok (some (relpath cwd file.full (parent page.full))) := by
      simp only [relativeUrl, hdoc, hto, withDot, if_neg htd, hpage]
    have hg : getUrl cwd file (some ctx) none = .ok (relpath cwd file.full (parent page.full)) := by
      simp only [getUrl, hb, if_true, hr]
      show Except.ok (dblSlash none (rstrip (· = '/') _)) = _
      rw [n3, cleanup_join names n1 n2]
    rw [h1, Except.ok.injEq] at hg
    rw [hg]
    have hparts : ∀ n ∈ absParts cwd file.full, '#' ∉ n := by
      intro n hn
      rcases norm_mem _ _ n hn with h | h
      · rw [List.mem_append] at h
        rcases h with h | h
        · split at h
          · simp at h
          · exact hc n h
        · apply hs
          generalize file.full = q at f1 h
          cases f1
          exact h
      · simp at h
    unfold relpath
    have hrp := relParts_mem (absParts cwd (parent page.full)) (absParts cwd file.full)
    have hsl := fun h => slashed_join (relParts (absParts cwd (parent page.full)) (absParts cwd file.full)) h
      (relParts_names _ _ (fun n => '/' ∉ n) (by decide) (fun n hn => (absParts_names cwd file.full hcwd f2 n hn).1.2.2))
    generalize relParts (absParts cwd (parent page.full)) (absParts cwd file.full) = rp at hrp hsl
    cases rp with
    | nil => decide
    | cons a l =>
      refine (hsl (by simp)).not_mem '#' (by decide) ?_
      intro n hn
      rcases hrp n hn with rfl | h
      · decide
      · exact hparts n h
  exact ⟨link, h1, h2, .whole _ hm, .anchor _ _ hm⟩

/-- C54. Every label that a reference finds belongs to a document of the project: so after a registration the lookup of the
document of a label does not fail. `docs` is `documents_by_id` of the root document. -/
theorem C54_owner_known (sep : Str) (m : Manager) (h : Reachable sep m) (hr : m.registered = false) (env : Labels.Env)
    (docs : Dict Str Files) (henv : env.docIds = some docs.keys) (id : Str) (l : Label)
    (hl : (m.getLabel env sep id).2 = some l) : ∃ files, docs.get? l.docId = some files := by
  have hmem : l ∈ (m.register env).values := by
    rcases hid : parseId sep id with ⟨d, lid⟩
    cases d with
    | some d => exact ((C11_with_document sep m h env id d lid hid l).1 hl).1
    | none =>
      obtain ⟨a, b, e, _⟩ := (C11_without_document sep m h env id lid hid l).1 hl
      rw [e]; simp
  have hk := C12_kept_and_dropped sep m h env hr docs.keys henv l.docId
  by_cases hd : l.docId ∈ docs.keys
  · cases hg : docs.get? l.docId with
    | some f => exact ⟨f, rfl⟩
    | none => exact absurd hd ((Dict.get?_eq_none_iff _ _).1 hg)
  · rw [if_neg hd, List.map_eq_nil_iff, List.filter_eq_nil_iff] at hk
    exact absurd (by simp) (hk l hmem)

/-- C54. An unknown label is an error, and so is a target that the document of the label, or that of the page, does not
have; no wrong link is made. -/
theorem C54_errors (cwd : List Str) (m : Manager) (env : Labels.Env) (sep : Str) (doc : Str) (ctx : Ctx)
    (docs : Dict Str Files) (id target : Str) :
    ((m.getLabel env sep id).2 = none → refLink cwd m env sep (some doc) ctx docs id target = .error .labelNotFound) ∧
    (∀ l other e, (m.getLabel env sep id).2 = some l → l.docId ≠ doc → docs.get? l.docId = some other →
      other (if target.head? = some '.' then target else '.' :: target) = .error e →
      refLink cwd m env sep (some doc) ctx docs id target = .error e) := by
  refine ⟨fun h => by simp [refLink, h], ?_⟩
  intro l other e h1 h2 h3 h4
  have hne : ¬ some doc = some l.docId := fun h => h2 (Option.some.inj h).symm
  simp only [refLink, h1, refUrl, if_neg (Ne.symm h2), refDocument, if_neg hne, h3, withDot, h4]

/-! ### Absolute links -/

theorem dblSlash_scheme (s : Str) (prev : Option Char)
    (h : ∀ x y, s = x ++ '/' :: '/' :: y → (prev.toList ++ x).getLast? = some ':') : dblSlash prev s = s := by
  match s with
  | [] => rfl
  | [c] => rfl
  | c :: d :: t =>
    rw [dblSlash, if_neg]
    · congr 1
      refine dblSlash_scheme (d :: t) (some c) ?_
      intro x y e
      have := h (c :: x) y (by rw [e]; rfl)
      simpa [List.getLast?_append] using this
    · rintro ⟨rfl, rfl, hp⟩
      have := h [] t rfl
      cases prev with
      | none => simp at this
      | some c => simp at this; exact hp (by rw [this])
termination_by s.length

theorem format_literal (look : Str → Option Str) (pre t : Str) (h1 : '{' ∉ pre) (h2 : '}' ∉ pre) :
    format look none (pre ++ t) = (format look none t).map (pre ++ ·) := by
  induction pre with
  | nil => cases h : format look none t <;> simp [Except.map, h]
  | cons c pre ih =>
    simp only [List.mem_cons, not_or] at h1 h2
    rw [List.cons_append, format, ih h1.2 h2.2]
    · cases format look none t <;> rfl
    · rintro u rfl; exact absurd rfl h1.1
    · rintro u rfl; exact absurd rfl h2.1
    · rintro rfl; exact absurd rfl h1.1
    · rintro rfl; exact absurd rfl h2.1

theorem slash_join_no_dbl (l : List Str) (hne : l ≠ []) (h : ∀ n ∈ l, n ≠ [] ∧ '/' ∉ n) :
    ¬ ['/', '/'] <:+: '/' :: join ['/'] l := by
  have := join_no_dbl (['x'] :: l) (by
    intro n hn
    rw [List.mem_cons] at hn
    rcases hn with rfl | hn
    · decide
    · exact h n hn)
  intro hh
  apply this
  cases l with
  | nil => exact absurd rfl hne
  | cons a l =>
    have e : join ['/'] (['x'] :: a :: l) = 'x' :: '/' :: join ['/'] (a :: l) := by simp [join]
    rw [e]
    exact hh.trans ⟨['x'], [], by simp⟩

/-- C54. Without relative links, and with the `base_url` of the settings, a link consists of the target and the names of
the path in it. The text of the path must not start or end with a period, see `C54_hidden_directory`. -/
theorem C54_absolute_partial (cwd : List Str) (file : TargetPath) (hf : GoodPy (.target file)) (ctx : Ctx)
    (hrel : ctx.relative = some false) (hb : ctx.baseUrl = none ∨ ctx.baseUrl = some "/{target}/{subpath}".toList)
    (t : Str) (ht : file.target = ⟨false, [t]⟩) (ht1 : t.head? ≠ some '.') (ht2 : t.getLast? ≠ some '.')
    (text : Str) (hne : file.sub.parts ≠ []) (htext : Slashed text file.sub.parts)
    (hs1 : text.head? ≠ some '.') (hs2 : text.getLast? ≠ some '.') :
    ∃ rest, getUrl cwd file (some ctx) none = .ok ('/' :: rest) ∧ Slashed rest (t :: file.sub.parts) := by
  obtain ⟨g1, g2, g3, g4, g5⟩ := hf
  have hsub : ∀ n ∈ file.sub.parts, n ≠ [] ∧ '/' ∉ n := fun n hn => ⟨(g3 n hn).1, (g3 n hn).2.2⟩
  have htn : IsName t := g2 t (by rw [ht]; simp)
  have etext : text = join ['/'] file.sub.parts := by
    have key : ∀ (s : Str) (l : List Str), Slashed s l → s = join ['/'] l := by
      intro s l h
      induction h with
      | one s _ => rfl
      | cons s r l _ h ih =>
        cases l with
        | nil => cases h
        | cons a l =>
          have e : join ['/'] (s :: a :: l) = s ++ '/' :: join ['/'] (a :: l) := by simp [join]
          rw [e, ← ih]
    exact key _ _ htext
  have e1 : stripDots (targetName file none) = t := by
    simp [targetName, ht, toStr, join, stripDots_clean t ht1 ht2]
  have e2 : stripDots (toStr file.sub) = join ['/'] file.sub.parts := by
    rw [toStr, if_neg (by simp [g4]), if_neg hne, ← etext, stripDots_clean _ hs1 hs2]
  have eb : ctx.baseUrl.getD defaultUrl = "/{target}/{subpath}".toList := by rcases hb with h | h <;> rw [h] <;> rfl
  have e3 : absoluteUrl file ctx.baseUrl none = .ok ('/' :: join ['/'] (t :: file.sub.parts)) := by
    unfold absoluteUrl
    rw [eb]
    have hj : join ['/'] (t :: file.sub.parts) = t ++ '/' :: join ['/'] file.sub.parts := by
      cases hp : file.sub.parts with
      | nil => exact absurd hp hne
      | cons a l => simp [join]
    have f1 : urlField file none "target".toList = some t := by
      rw [urlField, if_neg (by decide), if_pos rfl, e1]
    have f2 : urlField file none "subpath".toList = some (join ['/'] file.sub.parts) := by
      rw [urlField, if_neg (by decide), if_neg (by decide), if_pos rfl, e2]
    rw [hj]
    have g1 : format (urlField file none) none "/{target}/{subpath}".toList =
        (match urlField file none "target".toList with
          | some v => (format (urlField file none) none "/{subpath}".toList).map (v ++ ·)
          | none => .error .key).map ('/' :: ·) := rfl
    have g2 : format (urlField file none) none "/{subpath}".toList =
        (match urlField file none "subpath".toList with
          | some v => (.ok [] : Except Err Str).map (v ++ ·)
          | none => .error .key).map ('/' :: ·) := rfl
    rw [g1, g2, f1, f2]
    simp [Except.map]
  refine ⟨join ['/'] (t :: file.sub.parts), ?_, ?_⟩
  · have hall : ∀ n ∈ t :: file.sub.parts, n ≠ [] ∧ '/' ∉ n := by
      intro n hn
      rw [List.mem_cons] at hn
      rcases hn with rfl | hn
      · exact ⟨htn.1, htn.2.2⟩
      · exact hsub n hn
    have : getUrl cwd file (some ctx) none = .ok (dblSlash none (rstrip (· = '/') ('/' :: join ['/'] (t :: file.sub.parts)))) := by
      simp only [getUrl, hrel, Option.getD_some, Option.bind_some]
      show (do let url ← absoluteUrl file ctx.baseUrl none; pure (dblSlash none (rstrip (· = '/') url))) = _
      rw [e3]
      rfl
    rw [this]
    obtain ⟨s, c, h1, h2⟩ := join_last _ (by simp) hall
    have hr := rstrip_slash ('/' :: s) c h2
    rw [List.cons_append, ← h1] at hr
    rw [hr, dblSlash_id _ (slash_join_no_dbl _ (by simp) hall)]
  · refine slashed_join _ (by simp) ?_
    intro n hn
    rw [List.mem_cons] at hn
    rcases hn with rfl | hn
    · exact htn.2.2
    · exact (hsub n hn).2

/-- C54. Such links tell files apart: two files with the same absolute link are in the same target, at the same path. -/
theorem C54_absolute_distinct_partial (cwd : List Str) (file file' : TargetPath) (hf : GoodPy (.target file))
    (hf' : GoodPy (.target file')) (ctx : Ctx)
    (hrel : ctx.relative = some false) (hb : ctx.baseUrl = none ∨ ctx.baseUrl = some "/{target}/{subpath}".toList)
    (t t' : Str) (ht : file.target = ⟨false, [t]⟩) (ht1 : t.head? ≠ some '.') (ht2 : t.getLast? ≠ some '.')
    (ht' : file'.target = ⟨false, [t']⟩) (ht1' : t'.head? ≠ some '.') (ht2' : t'.getLast? ≠ some '.')
    (text text' : Str) (hne : file.sub.parts ≠ []) (htext : Slashed text file.sub.parts)
    (hs1 : text.head? ≠ some '.') (hs2 : text.getLast? ≠ some '.')
    (hne' : file'.sub.parts ≠ []) (htext' : Slashed text' file'.sub.parts)
    (hs1' : text'.head? ≠ some '.') (hs2' : text'.getLast? ≠ some '.')
    (he : getUrl cwd file (some ctx) none = getUrl cwd file' (some ctx) none) :
    file.target = file'.target ∧ file.sub = file'.sub := by
  obtain ⟨r, h1, h2⟩ := C54_absolute_partial cwd file hf ctx hrel hb t ht ht1 ht2 text hne htext hs1 hs2
  obtain ⟨r', h1', h2'⟩ := C54_absolute_partial cwd file' hf' ctx hrel hb t' ht' ht1' ht2' text' hne' htext' hs1' hs2'
  rw [h1, h1'] at he
  simp only [Except.ok.injEq, List.cons.injEq, true_and] at he
  subst he
  have := h2.det h2'
  simp only [List.cons.injEq] at this
  refine ⟨by rw [ht, ht', this.1], ?_⟩
  obtain ⟨_, _, _, g4, _⟩ := hf
  obtain ⟨_, _, _, g4', _⟩ := hf'
  obtain ⟨_, _, ⟨ab, pa⟩⟩ := file
  obtain ⟨_, _, ⟨ab', pa'⟩⟩ := file'
  simp only at this g4 g4' ⊢
  rw [g4, g4', this.2]

/-- C54. With another `base_url` that ends in `/{subpath}`, like `https://example.com/book/{subpath}`, a link is that text
with the path of the file at its end. The text before it has no double slash other than behind a colon. -/
theorem C54_base_url (cwd : List Str) (file : TargetPath) (hf : GoodPy (.target file)) (ctx : Ctx)
    (hrel : ctx.relative = some false) (pre : Str) (hb : ctx.baseUrl = some (pre ++ "/{subpath}".toList))
    (hp1 : '{' ∉ pre) (hp2 : '}' ∉ pre) (hp3 : pre.getLast? ≠ some '/')
    (hp4 : ∀ x y, pre = x ++ '/' :: '/' :: y → x.getLast? = some ':')
    (text : Str) (hne : file.sub.parts ≠ []) (htext : Slashed text file.sub.parts)
    (hs1 : text.head? ≠ some '.') (hs2 : text.getLast? ≠ some '.') :
    getUrl cwd file (some ctx) none = .ok (pre ++ '/' :: text) := by
  obtain ⟨g1, g2, g3, g4, g5⟩ := hf
  have hsub : ∀ n ∈ file.sub.parts, n ≠ [] ∧ '/' ∉ n := fun n hn => ⟨(g3 n hn).1, (g3 n hn).2.2⟩
  have etext : text = join ['/'] file.sub.parts := by
    have key : ∀ (s : Str) (l : List Str), Slashed s l → s = join ['/'] l := by
      intro s l h
      induction h with
      | one s _ => rfl
      | cons s r l _ h ih =>
        cases l with
        | nil => cases h
        | cons a l =>
          have e : join ['/'] (s :: a :: l) = s ++ '/' :: join ['/'] (a :: l) := by simp [join]
          rw [e, ← ih]
    exact key _ _ htext
  have e2 : stripDots (toStr file.sub) = text := by
    rw [toStr, if_neg (by simp [g4]), if_neg hne, ← etext, stripDots_clean _ hs1 hs2]
  have f2 : urlField file none "subpath".toList = some text := by
    rw [urlField, if_neg (by decide), if_neg (by decide), if_pos rfl, e2]
  have e3 : absoluteUrl file ctx.baseUrl none = .ok (pre ++ '/' :: text) := by
    unfold absoluteUrl
    rw [hb, Option.getD_some, format_literal _ _ _ hp1 hp2]
    have g2 : format (urlField file none) none "/{subpath}".toList =
        (match urlField file none "subpath".toList with
          | some v => (.ok [] : Except Err Str).map (v ++ ·)
          | none => .error .key).map ('/' :: ·) := rfl
    rw [g2, f2]
    simp [Except.map]
  have : getUrl cwd file (some ctx) none = .ok (dblSlash none (rstrip (· = '/') (pre ++ '/' :: text))) := by
    simp only [getUrl, hrel, Option.getD_some, Option.bind_some]
    show (do let url ← absoluteUrl file ctx.baseUrl none; pure (dblSlash none (rstrip (· = '/') url))) = _
    rw [e3]
    rfl
  rw [this]
  obtain ⟨s, c, h1, h2⟩ := join_last _ hne hsub
  rw [← etext] at h1
  have hr := rstrip_slash (pre ++ '/' :: s) c h2
  rw [List.append_assoc, List.cons_append, ← h1] at hr
  rw [hr, dblSlash_scheme]
  intro x y e
  rw [Option.toList_none, List.nil_append]
  have hnd := slash_join_no_dbl _ hne hsub
  rw [← etext] at hnd
  rcases List.append_eq_append_iff.1 e with ⟨a', h3, h4⟩ | ⟨c', h3, h4⟩
  · exact absurd ⟨a', y, by rw [h4]; simp⟩ hnd
  · match c', h4 with
    | [], h4 => exact absurd ⟨[], y, by rw [← List.nil_append ('/' :: text), ← h4]; rfl⟩ hnd
    | [d], h4 =>
      simp at h4
      rw [h3] at hp3
      simp [← h4.1] at hp3
    | d :: d' :: c', h4 =>
      simp at h4
      obtain ⟨rfl, rfl, rfl⟩ := h4
      exact hp4 x c' h3

/-! ### Findings and examples -/

def page1 : TargetPath := ⟨⟨true, ["p".toList]⟩, ⟨false, ["html".toList]⟩, ⟨false, ["ch1".toList, "a.html".toList]⟩⟩
def page2 : TargetPath := ⟨⟨true, ["p".toList]⟩, ⟨false, ["html".toList]⟩, ⟨false, ["ch2".toList, "b.html".toList]⟩⟩
def page3 : TargetPath := ⟨⟨true, ["p".toList]⟩, ⟨false, ["html".toList]⟩, ⟨false, ["c#.html".toList]⟩⟩

def filesOf (t : TargetPath) : Files := fun x => if x = ".html".toList then .ok (some t) else .error .targetNotFound
def ctx1 (rel : Bool) : Ctx := ⟨some rel, some (filesOf page1), none⟩

example : GoodPy (.target page1) ∧ GoodPy (.target page2) ∧ page1.sub.parts ≠ [] ∧
    (filesOf page1) ".html".toList = .ok (some page1) := by
  refine ⟨?_, ?_, by decide, rfl⟩ <;>
  · refine ⟨?_, ?_, ?_, rfl, rfl, Or.inr ⟨by decide, by decide⟩⟩ <;> (unfold Good IsName; decide)

theorem C54_example : getUrl [] page2 (some (ctx1 true)) none = .ok "../ch2/b.html".toList ∧
    getUrl [] page2 (some (ctx1 false)) none = .ok "/html/ch2/b.html".toList := ⟨rfl, rfl⟩

example : Slashed "../ch2/b.html".toList ["..".toList, "ch2".toList, "b.html".toList] :=
  .cons "..".toList _ _ (by decide) (.cons "ch2".toList _ _ (by decide) (.one _ (by decide)))

example : ∀ x y, "https://example.com/book".toList = x ++ '/' :: '/' :: y → x.getLast? = some ':' := by
  intro x y h
  match x, h with
  | ['h', 't', 't', 'p', 's', ':'], _ => rfl
  | x, h =>
    have : x = "https:".toList := by
      have hl := congrArg List.length h
      simp at hl
      have key : ∀ n, n ≤ 22 → ("https://example.com/book".toList.drop n).take 2 = ['/', '/'] → n = 6 := by decide
      have h6 := key x.length (by omega) (by rw [h]; simp)
      have e : List.take 6 (x ++ '/' :: '/' :: y) = x := by rw [← h6, List.take_left]
      rw [← e, ← h]
      rfl
    rw [this]; rfl

/-- Finding: names are not quoted in links, so the link to a file with a `#` in its name ends before it. -/
theorem C54_hash_in_name : getUrl [] page3 (some (ctx1 true)) none = .ok "../c#.html".toList ∧
    ¬ Parts "../c#.html".toList "../c#.html".toList none ∧ Parts "../c#.html".toList "../c".toList (some ".html".toList) := by
  refine ⟨rfl, ?_, ?_⟩
  · intro h
    have key : ∀ (s q : Str) (o : Option Str), Parts s q o → o = none → '#' ∉ s := by
      intro s q o h
      cases h with
      | whole _ h => exact fun _ => h
      | anchor => exact fun h => nomatch h
    exact key _ _ _ h rfl (by decide)
  · exact .anchor "../c".toList ".html".toList (by decide)

/-- Finding: with absolute links, the period of a hidden directory is lost, and two files have the same link. -/
theorem C54_hidden_directory :
    getUrl [] ⟨⟨true, ["p".toList]⟩, ⟨false, ["html".toList]⟩, ⟨false, [".x".toList, "a.html".toList]⟩⟩ (some (ctx1 false)) none =
      .ok "/html/x/a.html".toList ∧
    getUrl [] ⟨⟨true, ["p".toList]⟩, ⟨false, ["html".toList]⟩, ⟨false, ["x".toList, "a.html".toList]⟩⟩ (some (ctx1 false)) none =
      .ok "/html/x/a.html".toList := ⟨rfl, rfl⟩

/-- Finding: in a project with the target `tex` only, a reference to another document is an error, since references in
LaTeX always ask for the `pdf` target (`tags/ref.py:291`). -/
theorem C54_tex_without_pdf (cwd : List Str) (l : Label) (hd : l.docId = "b.dm".toList) :
    refUrl cwd (some "a.dm".toList) (ctx1 true)
      [("b.dm".toList, fun x => if x = ".tex".toList then .ok (some page2) else .error .targetNotFound)] l ".pdf".toList
      l.content = .error .targetNotFound := by
  have h1 : ¬ "a.dm".toList = l.docId := by rw [hd]; decide
  have h2 : ¬ some "a.dm".toList = some l.docId := by rw [hd]; decide
  simp only [refUrl, if_neg h1, refDocument, if_neg h2, hd]
  rfl

end Verif.Links
