import Verif.Lemmas.Rewrite
import Verif.Props.Links

/-!
# C70: links to files in templates
-/

namespace Verif.Rewrite

open Verif Verif.Paths Verif.Links

variable {sp brk : Char → Bool} {isFile : Path → Except PathError Bool}

theorem search_eq (out : TargetPath) (ho : GoodPy (.target out)) (names : List Str) (hn : ∀ n ∈ names, IsName n)
    (h1 : NoFile isFile ⟨false, names⟩) (h2 : NoFile isFile ⟨false, "None".toList :: "None".toList :: names⟩) (b : Bool)
    (h3 : isFile (inTarget out names) = .ok b) :
    findPath isFile (.plain ⟨false, names⟩) (searched out) true =
      if b then .ok (some (.target ⟨out.root, out.target, ⟨false, names⟩⟩)) else .error .notFound := by
  obtain ⟨g1, g2, g3, g4, g5⟩ := ho
  have hNone : parse "None".toList = ⟨false, ["None".toList]⟩ := by decide
  have hgN : Good ⟨false, ["None".toList]⟩ := by
    rw [← hNone]; exact parse_good _
  have hcN : CleanTarget ⟨false, ["None".toList]⟩ := ⟨rfl, .inr ⟨by decide, by decide⟩⟩
  have c1 := candidate_sub ⟨false, ["None".toList]⟩ ⟨false, ["None".toList]⟩ names hgN hgN hcN hn
  have c2 := candidate_sub out.root out.target names g1 g2 g5 hn
  have f1 := full_target ⟨false, ["None".toList]⟩ ⟨false, ["None".toList]⟩ names rfl
  have f2 := full_target out.root out.target names g5.1
  simp only [PyPath.full, List.cons_append, List.nil_append] at f1 f2
  have hdot : div (parse ['.']) ⟨false, names⟩ = ⟨false, names⟩ := by
    have : parse ['.'] = ⟨false, []⟩ := by decide
    rw [this]; simp [div]
  unfold findPath searched
  unfold NoFile at h1 h2
  unfold inTarget at h3
  simp only [PyPath.full]
  rw [h1]
  simp only [Bool.false_eq_true, if_false]
  rw [hNone]
  simp only [searchLoop]
  have c0 : candidate (.plain (parse ['.'])) ⟨false, names⟩ = .ok (.plain ⟨false, names⟩) := by simp only [candidate, hdot]
  rw [c0]
  simp only [PyPath.full]
  rw [h1]
  simp only
  rw [c1]
  simp only
  rw [f1, h2]
  simp only
  rw [c2]
  simp only
  rw [f2, h3]
  cases b <;> simp

/-- A link to a file in the target directory, computed from the page that the document has for the target. -/
theorem url_leads (cwd : List Str) (hcwd : ∀ c ∈ cwd, IsName c) (page file : TargetPath)
    (hp : GoodPy (.target page)) (hf : GoodPy (.target file)) (hname : page.sub.parts ≠ [])
    (ctx : Ctx) (hrel : ctx.relative ≠ some false) (files : Files) (hdoc : ctx.document = some files)
    (t : Str) (ht : t ≠ []) (hpage : files (if t.head? = some '.' then t else '.' :: t) = .ok (some page)) :
    ∃ link, getUrl cwd file (some ctx) (some t) = .ok link ∧ Leads cwd page link file := by
  obtain ⟨p1, p2⟩ := fileOf_full page hp
  obtain ⟨f1, f2⟩ := fileOf_full file hf
  have hpar : Good (parent page.full) := fun c hc => p2 c (List.dropLast_subset _ hc)
  obtain ⟨names, n1, n2, n3, n4⟩ := relpath_slashed cwd file.full (parent page.full) hcwd f2 hpar
  have hto : targetName file (some t) = t := by
    cases t with
    | nil => exact absurd rfl ht
    | cons c t => rfl
  have hr : relativeUrl cwd file ctx (some t) = .ok (some (join ['/'] names)) := by
    simp only [relativeUrl, hdoc, hto, withDot, hpage, n3]
  have hg : getUrl cwd file (some ctx) (some t) = .ok (join ['/'] names) := by
    have hb : ctx.relative.getD true = true := by
      cases hc : ctx.relative with
      | none => rfl
      | some b => cases b <;> simp_all
    simp only [getUrl, hb, if_true, hr]
    show Except.ok (dblSlash none (rstrip (· = '/') (join ['/'] names))) = _
    rw [cleanup_join names n1 n2]
  refine ⟨_, hg, page.full, file.full, page.full.parts.dropLast, names, page.full.parts.getLast?.getD [], _, _, p1, f1, ?_, ?_,
    absParts_at cwd file.full hcwd f2, slashed_join names n1 (fun n h => (n2 n h).2), n4⟩
  · have : page.full.parts ≠ [] := by
      generalize page.full = q at p1
      cases p1 with
      | mk root target sub _ _ =>
        intro h
        rw [List.append_eq_nil_iff] at h
        exact hname h.2
    rw [List.getLast?_eq_some_getLast this, Option.getD_some, List.dropLast_concat_getLast]
  · exact absParts_at cwd (parent page.full) hcwd hpar

/-- C70. A path in a template, like that of a style sheet, becomes a link that leads from the page of the document to the file of that
name in the target directory, if there is one, for every page and every path. The conditions are that there is no such file in the
current directory (see `C70_current_directory`) and none in its directory `None/None`. -/
theorem C70_link_partial (cwd : List Str) (hcwd : ∀ n ∈ cwd, IsName n) (out page : TargetPath) (ho : GoodPy (.target out))
    (hp : GoodPy (.target page)) (hname : page.sub.parts ≠ []) (ctx : Ctx) (hrel : ctx.relative ≠ some false) (files : Files)
    (hdoc : ctx.document = some files) (target : Str) (ht : target ≠ [])
    (hpage : files (if target.head? = some '.' then target else '.' :: target) = .ok (some page))
    (stub text : Str) (names : List Str) (hs : Stub sp brk stub text names)
    (h1 : NoFile isFile ⟨false, names⟩) (h2 : NoFile isFile ⟨false, "None".toList :: "None".toList :: names⟩)
    (h3 : IsFile isFile (inTarget out names)) :
    ∃ link, rewritePath sp brk isFile cwd ctx target out stub = .ok link ∧
      Leads cwd page link ⟨out.root, out.target, ⟨false, names⟩⟩ := by
  have hf : GoodPy (.target ⟨out.root, out.target, ⟨false, names⟩⟩) := ⟨ho.1, ho.2.1, hs.good, rfl, ho.2.2.2.2⟩
  obtain ⟨link, h4, h5⟩ := url_leads cwd hcwd page _ hp hf hname ctx hrel files hdoc target ht hpage
  refine ⟨link, ?_, h5⟩
  have := search_eq out ho names hs.good h1 h2 true h3
  unfold rewritePath
  simp only [stub_strip hs, findFile, stub_parse hs, this, if_true, h4]

/-- C70. A path for which there is no file becomes the path without the slashes around it; so a path without them is unchanged, and one
that is not relative becomes relative. The directory of the output file is not searched: this is so even if the file is in it. -/
theorem C70_not_found (cwd : List Str) (out : TargetPath) (ho : GoodPy (.target out)) (ctx : Ctx) (target : Str)
    (stub text : Str) (names : List Str) (hs : Stub sp brk stub text names)
    (h1 : NoFile isFile ⟨false, names⟩) (h2 : NoFile isFile ⟨false, "None".toList :: "None".toList :: names⟩)
    (h3 : NoFile isFile (inTarget out names)) :
    rewritePath sp brk isFile cwd ctx target out stub = .ok text := by
  have := search_eq out ho names hs.good h1 h2 false h3
  unfold rewritePath
  simp only [stub_strip hs, findFile, stub_parse hs, this]
  rfl

/-- Refutation: if there is a file of that name in the current directory, the page cannot be rendered, although the file may be in the
target directory as well. -/
theorem C70_current_directory (cwd : List Str) (out : TargetPath) (ctx : Ctx) (target stub text : Str) (names : List Str)
    (hs : Stub sp brk stub text names) (h1 : IsFile isFile ⟨false, names⟩) :
    rewritePath sp brk isFile cwd ctx target out stub = .error (.url .attribute) := by
  have : findPath isFile (.plain ⟨false, names⟩) (searched out) true = .ok (some (.plain ⟨false, names⟩)) := by
    unfold findPath
    simp only [PyPath.full]
    rw [h1]
  unfold rewritePath
  simp only [stub_strip hs, findFile, stub_parse hs, this]

/-- Refutation: the directory of the output file is named as one of the places that are searched, but a file in it is not found. -/
theorem C70_same_directory : ∃ (isFile : Path → Except PathError Bool) (out : TargetPath) (ctx : Ctx) (names : List Str),
    GoodPy (.target out) ∧ IsFile isFile (inDirectory out names) ∧
    rewritePath (· = ' ') (· = '\n') isFile [] ctx ".html".toList out (join ['/'] names) = .ok (join ['/'] names) := by
  refine ⟨fun p => .ok (p = ⟨true, ["p".toList, "html".toList, "ch1".toList, "own.css".toList]⟩),
    ⟨⟨true, ["p".toList]⟩, ⟨false, ["html".toList]⟩, ⟨false, ["ch1".toList, "a.html".toList]⟩⟩, ⟨none, none, none⟩, ["own.css".toList],
    ?_, by unfold IsFile; decide, by decide⟩
  refine ⟨?_, ?_, ?_, rfl, rfl, .inr ⟨by decide, by decide⟩⟩ <;>
  · intro n hn
    simp only [List.mem_cons, List.not_mem_nil, or_false] at hn
    rcases hn with rfl | rfl <;> exact ⟨by decide, by decide, by decide⟩

/-! ### Concrete cases -/

/-- The page and output for the checks. -/
def toyPage : TargetPath := ⟨⟨true, ["p".toList]⟩, ⟨false, ["html".toList]⟩, ⟨false, ["ch1".toList, "a.html".toList]⟩⟩

def toyCtx : Ctx := ⟨none, some fun _ => .ok (some toyPage), none⟩

def toyFile : Path → Except PathError Bool := fun p =>
  .ok (p = ⟨true, ["p".toList, "html".toList, "media".toList, "base.css".toList]⟩)

/-- The hypotheses of the theorems are met. -/
example : GoodPy (.target toyPage) ∧ Stub (· = ' ') (· = '\n') "/media/base.css".toList "media/base.css".toList
      ["media".toList, "base.css".toList] ∧
    NoFile toyFile ⟨false, ["media".toList, "base.css".toList]⟩ ∧
    NoFile toyFile ⟨false, "None".toList :: "None".toList :: ["media".toList, "base.css".toList]⟩ ∧
    IsFile toyFile (inTarget toyPage ["media".toList, "base.css".toList]) ∧
    rewritePath (· = ' ') (· = '\n') toyFile [] toyCtx ".html".toList toyPage "/media/base.css".toList =
      .ok "../media/base.css".toList := by
  refine ⟨⟨?_, ?_, ?_, rfl, rfl, .inr ⟨by decide, by decide⟩⟩, ⟨⟨1, 0, rfl⟩, ?_, ?_, by decide, ?_, ?_⟩, by unfold NoFile; decide,
    by unfold NoFile; decide, by unfold IsFile; decide, by decide⟩
  case refine_4 => exact .cons "media".toList "base.css".toList _ (by decide) (.one _ (by decide))
  case refine_6 => intro ch h; cases h; decide
  case refine_7 => intro ch h; cases h; decide
  all_goals
    intro n hn
    simp only [toyPage, List.mem_cons, List.not_mem_nil, or_false] at hn
    rcases hn with rfl | rfl <;> exact ⟨by decide, by decide, by decide⟩

end Verif.Rewrite
