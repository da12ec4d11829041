import Verif.Lemmas.AddFile
import Verif.Props.CopyFile

/-!
# C78: the files of images
-/

namespace Verif.AddFile

open Verif Verif.Paths Verif.Builder

/-- An image with an extension that the documents of the target can show is copied, under its name, to the media directory of the target:
there is one more build, at the end, whose input is the file. -/
theorem C78_copied (c : Search) (hps : ∀ p ∈ c.paths, GoodPy p) (env : Env) (hr : Good env.targetRoot) (hc : Good env.cachePath)
    (hm : (env.mediaPath.getD []).head? ≠ some '/') (clss : List Cls) (builders : Dict Str Target) (s : Str) (attrs : Attrs.ADict)
    (u : Str) (exts : List Str) (hu : Shows u exts) (t : Str) (ht : t = u ∨ t = '.' :: u)
    (cache : Bool) (bs : List Build) (hb : builders.get? ('.' :: u) = some ⟨cache, true, bs⟩)
    (p : PyPath) (rest : List PyPath) (hf : findFiles c.sp c.brk c.isFile s c.paths = .ok (p :: rest)) (hp : GoodPy p)
    (d : Path) (n st e : Str) (hsub : HasSub p (child d n)) (hd : Good d) (hn : IsName n) (hs : Splits n st e)
    (hin : extension e ∈ exts) (hcopy : Convertible clss ".*".toList ".*".toList) :
    ∃ k args builders',
      imgFile c env clss builders s attrs t =
        (.ok ⟨if cache then env.cachePath else env.targetRoot, ⟨false, [u]⟩, child (placeOf env d n) n⟩, builders') ∧
      Best clss ".*".toList ".*".toList k ∧
      OneMore builders builders' ('.' :: u)
        ⟨k, .path p :: args, ⟨if cache then env.cachePath else env.targetRoot, ⟨false, [u]⟩, child (placeOf env d n) n⟩⟩ ∧
      List.Forall₂ (Passed c.isFile true) attrs args := by
  have hthere := findFiles_there c hps s _ hf p (by simp)
  obtain ⟨l, hl, hpass⟩ := found_file c hps p hp hthere attrs
  have htr := tracked_of u exts hu
  have hsx := suffix_has p d n st e hsub hs
  have hne : e ≠ [] := by
    intro h
    have := (shows_ext u exts hu _ hin).2.2
    simp [extension, h] at this
  have hname : n = st ++ '.' :: e := by
    rcases hs with h | h
    · exact h.1
    · exact absurd h.2.2.1 hne
  have hfind := (C23_by_target trackedDeps clss (extension e) [] ('.' :: u) exts (by simpa using htr)).1 hin
  rcases hfind with ⟨k, hk, hbest⟩ | ⟨_, hno⟩
  case inr => exact absurd hcopy hno
  have hisc : isCopy k = true := by simp [isCopy, hbest.2.2.2.1, hbest.2.2.2.2.1]
  have hgen := C34_placed env hr hc [] ((l.map Arg.asPath).map Arg.param) (by simp) p d n st e hsub hd hn hs (some ('.' :: u)) ⟨false, [u]⟩
    (dir_of u exts hu p) none none (by simp) (by simp) cache true hm
  have hsplit : st ++ (none : Option Str).getD [] ++ dotted ((none : Option Str).getD ('.' :: e)) = n := by
    rw [hname]; simp [dotted]
  rw [hsplit] at hgen
  simp only [true_and, List.nil_append] at hgen
  have hadd : addBuild c env clss cache (.path p :: attrArgs attrs) (some (suffix p.full)) ('.' :: u) =
      .ok ⟨k, .path p :: l.map Arg.asPath, ⟨if cache then env.cachePath else env.targetRoot, ⟨false, [u]⟩, child (placeOf env d n) n⟩⟩ := by
    unfold addBuild
    rw [hl]
    simp only [Option.or, chosen, hsx, hk, hisc, if_true, List.map_cons, Arg.asPath, Arg.param]
    rw [hgen]
    rfl
  obtain ⟨b', g1, g2⟩ := addFile_ok c env clss builders _ _ u exts hu t ht cache bs hb _ hadd
  exact ⟨k, l.map Arg.asPath, b', by rw [imgFile_found c env clss builders s attrs t p rest hf, g1], hbest, g2,
    passed_asPath c.isFile attrs l hpass⟩

/-- An image with another extension is converted to the first of the extensions that it can be converted to: the converted file has the
name of the image with that extension, in the media directory of the target. -/
theorem C78_converted (c : Search) (hps : ∀ p ∈ c.paths, GoodPy p) (env : Env) (hr : Good env.targetRoot) (hc : Good env.cachePath)
    (hm : (env.mediaPath.getD []).head? ≠ some '/') (clss : List Cls) (builders : Dict Str Target) (s : Str) (attrs : Attrs.ADict)
    (u : Str) (exts : List Str) (hu : Shows u exts) (t : Str) (ht : t = u ∨ t = '.' :: u)
    (cache : Bool) (bs : List Build) (hb : builders.get? ('.' :: u) = some ⟨cache, true, bs⟩)
    (p : PyPath) (rest : List PyPath) (hf : findFiles c.sp c.brk c.isFile s c.paths = .ok (p :: rest)) (hp : GoodPy p)
    (d : Path) (n st e : Str) (hsub : HasSub p (child d n)) (hd : Good d) (hn : IsName n) (hs : Splits n st e)
    (hin : extension e ∉ exts) (a b : List Str) (x : Str) (hx : exts = a ++ x :: b)
    (hfirst : ∀ y ∈ a, ¬ Convertible clss (extension e) y) (hcan : Convertible clss (extension e) x) :
    ∃ k args builders',
      imgFile c env clss builders s attrs t =
        (.ok ⟨if cache then env.cachePath else env.targetRoot, ⟨false, [u]⟩, child (placeOf env d n) (st ++ x)⟩, builders') ∧
      Best clss (extension e) x k ∧
      OneMore builders builders' ('.' :: u)
        ⟨k, .path p :: args, ⟨if cache then env.cachePath else env.targetRoot, ⟨false, [u]⟩, child (placeOf env d n) (st ++ x)⟩⟩ ∧
      List.Forall₂ (Passed c.isFile false) attrs args := by
  have hthere := findFiles_there c hps s _ hf p (by simp)
  obtain ⟨l, hl, hpass⟩ := found_file c hps p hp hthere attrs
  have htr := tracked_of u exts hu
  have hsx := suffix_has p d n st e hsub hs
  obtain ⟨hx1, hx2, hx3⟩ := shows_ext u exts hu x (by simp [hx])
  have hfind := (C23_by_target trackedDeps clss (extension e) [] ('.' :: u) exts (by simpa using htr)).2 hin
  rcases hfind with ⟨a', x', b', k, hsp, hk, hbest, hno⟩ | ⟨_, hno⟩
  case inr => exact absurd hcan (hno x (by simp [hx]))
  have hxx : x' = x := by
    have e1 : a' ++ x' :: b' = a ++ x :: b := hsp.symm.trans hx
    rcases List.append_eq_append_iff.1 e1 with ⟨m, h1, h2⟩ | ⟨m, h1, h2⟩
    · cases m with
      | nil => simp at h2; exact h2.1
      | cons y m =>
        simp only [List.cons_append, List.cons.injEq] at h2
        exact absurd ⟨k, hbest.1, hbest.2.1, hbest.2.2.1, hbest.2.2.2.1, hbest.2.2.2.2.1⟩ (hfirst x' (by rw [h1, h2.1]; simp))
    · cases m with
      | nil => simp at h2; exact h2.1.symm
      | cons y m =>
        simp only [List.cons_append, List.cons.injEq] at h2
        exact absurd hcan (hno x (by rw [h1, h2.1]; simp))
  subst hxx
  have hout : k.outExt = x' := hbest.2.2.2.2.1
  have hisc : isCopy k = false := by
    simp only [isCopy, hout, decide_eq_false_iff_not, not_and]
    exact fun _ => hx1
  have hgen := C34_placed env hr hc [] (l.map Arg.param) (by simp) p d n st e hsub hd hn hs (some ('.' :: u)) ⟨false, [u]⟩
    (dir_of u exts hu p) none (some x') (by simp) hx2 cache true hm
  have hsplit : st ++ (none : Option Str).getD [] ++ dotted ((some x' : Option Str).getD ('.' :: e)) = st ++ x' := by
    simp [dotted, hx3]
  rw [hsplit] at hgen
  simp only [true_and, List.nil_append] at hgen
  have hadd : addBuild c env clss cache (.path p :: attrArgs attrs) (some (suffix p.full)) ('.' :: u) =
      .ok ⟨k, .path p :: l, ⟨if cache then env.cachePath else env.targetRoot, ⟨false, [u]⟩, child (placeOf env d n) (st ++ x')⟩⟩ := by
    unfold addBuild
    rw [hl]
    simp only [Option.or, chosen, hsx, hk, hisc, Bool.false_eq_true, if_false, List.map_cons, Arg.param, hout]
    rw [hgen]
    rfl
  obtain ⟨b'', g1, g2⟩ := addFile_ok c env clss builders _ _ u exts hu t ht cache bs hb _ hadd
  exact ⟨k, l, b'', by rw [imgFile_found c env clss builders s attrs t p rest hf, g1], hbest, g2, hpass⟩

/-- An image that can neither be shown nor be converted raises an exception, and nothing is added. -/
theorem C78_no_builder (c : Search) (hps : ∀ p ∈ c.paths, GoodPy p) (env : Env) (clss : List Cls) (builders : Dict Str Target) (s : Str)
    (attrs : Attrs.ADict) (u : Str) (exts : List Str) (hu : Shows u exts) (t : Str) (ht : t = u ∨ t = '.' :: u)
    (cache : Bool) (bs : List Build) (hb : builders.get? ('.' :: u) = some ⟨cache, true, bs⟩)
    (p : PyPath) (rest : List PyPath) (hf : findFiles c.sp c.brk c.isFile s c.paths = .ok (p :: rest)) (hp : GoodPy p)
    (d : Path) (n st e : Str) (hsub : HasSub p (child d n)) (hs : Splits n st e)
    (hin : extension e ∉ exts) (hno : ∀ x ∈ exts, ¬ Convertible clss (extension e) x) :
    imgFile c env clss builders s attrs t = (.error .noBuilder, builders) := by
  have hthere := findFiles_there c hps s _ hf p (by simp)
  obtain ⟨l, hl, hpass⟩ := found_file c hps p hp hthere attrs
  have hsx := suffix_has p d n st e hsub hs
  have hfind := (C23_by_target trackedDeps clss (extension e) [] ('.' :: u) exts (by simpa using tracked_of u exts hu)).2 hin
  rcases hfind with ⟨a', x', b', k, hsp, hk, hbest, _⟩ | ⟨hk, _⟩
  · exact absurd ⟨k, hbest.1, hbest.2.1, hbest.2.2.1, hbest.2.2.2.1, hbest.2.2.2.2.1⟩ (hno x' (by simp [hsp]))
  rw [imgFile_found c env clss builders s attrs t p rest hf]
  apply addFile_error c env clss builders _ _ u exts hu t ht cache bs hb
  unfold addBuild
  rw [hl]
  simp only [Option.or, chosen, hsx, hk]

/-- Whatever happens, only the builds of the target change, and only by one more at the end, whose output path is the answer; after an
exception nothing has changed. -/
theorem C78_frame (c : Search) (env : Env) (clss : List Cls) (builders : Dict Str Target) (s : Str) (attrs : Attrs.ADict) (t : Str) :
    (∃ e, imgFile c env clss builders s attrs t = (.error e, builders)) ∨
    (∃ x u builders', imgFile c env clss builders s attrs t = (.ok x.out, builders') ∧ OneMore builders builders' u x) := by
  have key : ∀ args i, (∃ e, addFile c env clss builders args i t = (.error e, builders)) ∨
      (∃ x u builders', addFile c env clss builders args i t = (.ok x.out, builders') ∧ OneMore builders builders' u x) := by
    intro args i
    unfold addFile
    cases h1 : builders.get? (Targets.dot t) with
    | none => exact Or.inl ⟨.assertion, by simp only [h1]⟩
    | some y =>
      cases h2 : builders.get? (receiver (Targets.dot t)) with
      | none => exact Or.inl ⟨.attribute, by simp only [h1, h2]⟩
      | some b =>
        simp only [h1, h2]
        by_cases hp : b.parallel = false
        · rw [if_pos hp]; exact Or.inl ⟨_, rfl⟩
        · rw [if_neg hp]
          cases h3 : addBuild c env clss b.useCache args i (Targets.dot t) with
          | error e => exact Or.inl ⟨e, rfl⟩
          | ok x =>
            refine Or.inr ⟨x, receiver (Targets.dot t), _, rfl, ?_, b, h2, ?_⟩
            · intro v hv
              rw [Dict.get?_set, if_neg (fun h => hv h.symm)]
            · rw [Dict.get?_set_self]
  unfold imgFile
  cases contentFile c s with
  | error e => exact Or.inl ⟨_, rfl⟩
  | ok r => cases r with
    | none => exact key _ _
    | some p => exact key _ _

/-- No image can be added for the target `pdf` itself: there are no files that its documents show. -/
theorem C78_pdf (c : Search) (env : Env) (clss : List Cls) (builders : Dict Str Target) (s : Str) (attrs : Attrs.ADict) :
    ∃ e, imgFile c env clss builders s attrs ".pdf".toList = (.error e, builders) := by
  have hch : ∀ i, chosen clss i ".pdf".toList = .nothing := by
    intro i
    unfold chosen
    cases i with
    | none => rfl
    | some i => exact (C23_out_ext_ignored trackedDeps clss i [] [] ".pdf".toList).2 (by decide)
  have key : ∀ args i, ∃ e, addFile c env clss builders args i ".pdf".toList = (.error e, builders) := by
    intro args i
    have hadd : ∀ cache, ∃ e, addBuild c env clss cache args i ".pdf".toList = .error e := by
      intro cache
      unfold addBuild
      cases found c args with
      | error e => exact ⟨_, rfl⟩
      | ok l => simp only [hch]; exact ⟨_, rfl⟩
    have hdot : Targets.dot ".pdf".toList = ".pdf".toList := by decide
    unfold addFile
    simp only [hdot]
    cases h1 : builders.get? ".pdf".toList with
    | none => exact ⟨_, rfl⟩
    | some y =>
      cases h2 : builders.get? (receiver ".pdf".toList) with
      | none => exact ⟨_, rfl⟩
      | some b =>
        simp only
        by_cases hp : b.parallel = false
        · rw [if_pos hp]; exact ⟨_, rfl⟩
        · rw [if_neg hp]
          obtain ⟨e, he⟩ := hadd b.useCache
          rw [he]; exact ⟨e, rfl⟩
  unfold imgFile
  cases contentFile c s with
  | error e => exact ⟨_, rfl⟩
  | ok r => cases r with
    | none => exact key _ _
    | some p => exact key _ _

/-- Of a text that names no file, without attributes, nothing is made, unless it starts with a period. -/
theorem C78_not_a_file (c : Search) (hps : ∀ p ∈ c.paths, GoodPy p) (env : Env) (clss : List Cls) (builders : Dict Str Target) (s : Str)
    (u : Str) (exts : List Str) (hu : Shows u exts) (t : Str) (ht : t = u ∨ t = '.' :: u)
    (cache : Bool) (bs : List Build) (hb : builders.get? ('.' :: u) = some ⟨cache, true, bs⟩)
    (hf : findFiles c.sp c.brk c.isFile s c.paths = .ok []) (hf1 : findFile c.sp c.brk c.isFile (.text s) c.paths false = .ok none)
    (hdot : s.head? ≠ some '.') :
    imgFile c env clss builders s [] t = (.error .noBuilder, builders) := by
  have h1 : contentFile c s = .ok none := by unfold contentFile; rw [hf]; rfl
  unfold imgFile
  rw [h1]
  apply addFile_error c env clss builders _ _ u exts hu t ht cache bs hb
  have h2 : found c (.text s :: attrArgs []) = .ok [.text s] := by
    unfold found
    show (match findFile c.sp c.brk c.isFile (.text s) c.paths false with | .error e => _ | .ok r => _) = _
    rw [hf1]
    rfl
  unfold addBuild
  rw [h2]
  simp [inExtOf, hdot, chosen]

/-! ### Different images -/

theorem place_inj (env : Env) (d d' : Path) (n n' : Str) (hd : d.abs = false) (hd' : d'.abs = false)
    (hsame : env.mediaPath.getD [] <+: toStr (child d n) ↔ env.mediaPath.getD [] <+: toStr (child d' n'))
    (m m' : Str) (h : child (placeOf env d n) m = child (placeOf env d' n') m') : d = d' ∧ m = m' := by
  simp only [child, Path.mk.injEq] at h
  obtain ⟨_, h2⟩ := h
  have hp := (List.append_inj' h2 rfl).1
  have hm := (List.append_inj' h2 rfl).2
  refine ⟨?_, by simpa using hm⟩
  have habs : ∀ p q : Path, p.abs = false → q.abs = false → p.parts = q.parts → p = q := by
    rintro ⟨a, x⟩ ⟨b, y⟩ h1 h2 h3
    simp only at h1 h2 h3
    rw [h1, h2, h3]
  apply habs d d' hd hd'
  unfold placeOf at hp
  by_cases hc : env.mediaPath.getD [] ≠ [] ∧ ¬ env.mediaPath.getD [] <+: toStr (child d n)
  · rw [if_pos hc, if_pos ⟨hc.1, fun x => hc.2 (hsame.2 x)⟩] at hp
    simpa [div, hd, hd'] using hp
  · have hc' : ¬ (env.mediaPath.getD [] ≠ [] ∧ ¬ env.mediaPath.getD [] <+: toStr (child d' n')) :=
      fun h => hc ⟨h.1, fun x => h.2 (hsame.1 x)⟩
    rw [if_neg hc, if_neg hc'] at hp
    exact hp

/-- The copies of images with different subpaths have different paths, if both or none are in a directory whose name starts with
that of the media directory. Partial: it does not hold of converted images, see below. -/
theorem C78_distinct_partial (c : Search) (hps : ∀ p ∈ c.paths, GoodPy p) (env : Env) (hr : Good env.targetRoot) (hc : Good env.cachePath)
    (hm : (env.mediaPath.getD []).head? ≠ some '/') (clss : List Cls) (b1 b2 b1' b2' : Dict Str Target) (s s' : Str)
    (attrs attrs' : Attrs.ADict) (u : Str) (exts : List Str) (hu : Shows u exts)
    (cache : Bool) (bs bs' : List Build) (hb : b1.get? ('.' :: u) = some ⟨cache, true, bs⟩)
    (hb' : b2.get? ('.' :: u) = some ⟨cache, true, bs'⟩)
    (p p' : PyPath) (rest rest' : List PyPath) (hf : findFiles c.sp c.brk c.isFile s c.paths = .ok (p :: rest))
    (hf' : findFiles c.sp c.brk c.isFile s' c.paths = .ok (p' :: rest')) (hp : GoodPy p) (hp' : GoodPy p')
    (d d' : Path) (n st e n' st' e' : Str) (hsub : HasSub p (child d n)) (hd : Good d) (hn : IsName n) (hs : Splits n st e)
    (hsub' : HasSub p' (child d' n')) (hd' : Good d') (hn' : IsName n') (hs' : Splits n' st' e')
    (hin : extension e ∈ exts) (hin' : extension e' ∈ exts) (hcopy : Convertible clss ".*".toList ".*".toList)
    (hsame : env.mediaPath.getD [] <+: toStr (child d n) ↔ env.mediaPath.getD [] <+: toStr (child d' n'))
    (out out' : TargetPath) (h : imgFile c env clss b1 s attrs u = (.ok out, b1'))
    (h' : imgFile c env clss b2 s' attrs' u = (.ok out', b2')) (hne : child d n ≠ child d' n') : out.full ≠ out'.full := by
  obtain ⟨_, _, _, g1, _⟩ := C78_copied c hps env hr hc hm clss b1 s attrs u exts hu u (Or.inl rfl) cache bs hb p rest hf hp d n st e
    hsub hd hn hs hin hcopy
  obtain ⟨_, _, _, g2, _⟩ := C78_copied c hps env hr hc hm clss b2 s' attrs' u exts hu u (Or.inl rfl) cache bs' hb' p' rest' hf' hp' d' n' st'
    e' hsub' hd' hn' hs' hin' hcopy
  rw [h] at g1
  rw [h'] at g2
  have e1 := Except.ok.inj (Prod.mk.inj g1).1
  have e2 := Except.ok.inj (Prod.mk.inj g2).1
  have hda : d.abs = false := by cases hsub <;> assumption
  have hda' : d'.abs = false := by cases hsub' <;> assumption
  intro heq
  rw [e1, e2] at heq
  apply hne
  have hrel : ∀ x y : Str, ∀ a : Path, a.abs = false → (child (placeOf env a x) y).abs = false := by
    intro x y a ha
    have hma : (parse (env.mediaPath.getD [])).abs = false := by
      cases hmm : env.mediaPath.getD [] with
      | nil => rfl
      | cons z zs =>
        rw [hmm] at hm
        simp only [List.head?_cons, ne_eq, Option.some.injEq] at hm
        simp [parse, hm]
    show (placeOf env a x).abs = false
    unfold placeOf
    split
    · simp [div, ha, hma]
    · exact ha
  have hchild : child (placeOf env d n) n = child (placeOf env d' n') n' := by
    have hx := hrel n n d hda
    have hy := hrel n' n' d' hda'
    simp only [TargetPath.full] at heq
    generalize child (placeOf env d n) n = X at *
    generalize child (placeOf env d' n') n' = Y at *
    obtain ⟨xa, xp⟩ := X
    obtain ⟨ya, yp⟩ := Y
    simp only at hx hy
    subst hx hy
    simp only [div, Bool.false_eq_true, if_false, Path.mk.injEq, true_and, List.append_cancel_left_eq] at heq
    rw [heq]
  obtain ⟨i1, i2⟩ := place_inj env d d' n n' hda hda' hsame n n' hchild
  rw [i1, i2]

/-! ### Concrete projects -/

def search0 : Search := ⟨(· = ' '), (· = '\n'), fun p => .ok (p ∈ [parse "/p/src/a/fig.png".toList, parse "/p/src/fig.pdf".toList,
  parse "/p/src/fig.svg".toList, parse "/p/src/movie.mov".toList]), [.source ⟨parse "/p/src".toList, parse [] ⟩]⟩

def clss0 : List Cls := [⟨"Copy".toList, true, true, ".*".toList, ".*".toList, 1000⟩,
  ⟨"Pdf2SvgCropScale".toList, true, true, ".pdf".toList, ".svg".toList, 1000⟩]

def builders0 : Dict Str Target := [(".html".toList, ⟨false, true, []⟩), (".tex".toList, ⟨true, true, []⟩), (".pdf".toList, ⟨false, false, []⟩)]

def env1 : Env := ⟨parse "/p".toList, parse "/p/.cache".toList, some "media".toList⟩

/-- The answer for an image, and the inputs and outputs of the builds for the target. -/
def shown (r : Except Err TargetPath × Dict Str Target) (t : Str) : Except Err Str × List (List Arg × Str) :=
  (match r.1 with | .ok x => .ok (toStr x.full) | .error e => .error e,
   ((r.2.get? t).map fun b => b.builds.map fun x => (x.parameters, toStr x.out.full)).getD [])

def fig (s : Str) : PyPath := .source ⟨parse "/p/src".toList, parse s⟩

example : shown (imgFile search0 env1 clss0 builders0 "a/fig.png".toList [("width".toList, .str "10%".toList)] "html".toList) ".html".toList =
    (.ok "/p/html/media/a/fig.png".toList,
      [([.path (fig "a/fig.png".toList), .pair "width".toList "10%".toList], "/p/html/media/a/fig.png".toList)]) := by rfl

example : shown (imgFile search0 env1 clss0 builders0 "fig.pdf".toList [("scale".toList, .str "2".toList)] "tex".toList) ".tex".toList =
    (.ok "/p/.cache/tex/media/fig.pdf".toList,
      [([.path (fig "fig.pdf".toList), .pair "scale".toList "2".toList], "/p/.cache/tex/media/fig.pdf".toList)]) := by rfl

example : shown (imgFile search0 env1 clss0 builders0 "movie.mov".toList [] "html".toList) ".html".toList = (.error .noBuilder, []) := by rfl

example : shown (imgFile search0 env1 clss0 builders0 "none.png".toList [] "html".toList) ".html".toList = (.error .noBuilder, []) := by rfl

/-- The hypotheses of the theorems hold of these projects. -/
example : (∀ p ∈ search0.paths, GoodPy p) ∧
    findFiles search0.sp search0.brk search0.isFile "a/fig.png".toList search0.paths = .ok [fig "a/fig.png".toList] ∧
    findFiles search0.sp search0.brk search0.isFile "fig.pdf".toList search0.paths = .ok [fig "fig.pdf".toList] ∧
    HasSub (fig "a/fig.png".toList) (child ⟨false, ["a".toList]⟩ "fig.png".toList) ∧ Splits "fig.png".toList "fig".toList "png".toList ∧
    builders0.get? ('.' :: "html".toList) = some ⟨false, true, []⟩ ∧ Convertible clss0 ".*".toList ".*".toList ∧
    Convertible clss0 ".pdf".toList ".svg".toList ∧ ¬ Convertible clss0 ".pdf".toList ".css".toList :=
  ⟨by
    intro p hp
    simp only [search0, List.mem_singleton] at hp
    subst hp
    exact ⟨parse_good _, parse_good _, rfl⟩, by rfl, by rfl, HasSub.source _ _ rfl, Or.inl (by decide), by rfl, by unfold Convertible; decide,
    by unfold Convertible; decide, by unfold Convertible; decide⟩

/-- Different images with the same file: for html, `fig.svg` is copied to the path to which `fig.pdf` is converted, and images that differ
only in their scale are converted to one path. -/
theorem C78_distinct_refuted :
    shown (imgFile search0 env1 clss0 (imgFile search0 env1 clss0 builders0 "fig.svg".toList [] "html".toList).2 "fig.pdf".toList []
      "html".toList) ".html".toList =
      (.ok "/p/html/media/fig.svg".toList,
        [([.path (fig "fig.svg".toList)], "/p/html/media/fig.svg".toList), ([.path (fig "fig.pdf".toList)], "/p/html/media/fig.svg".toList)]) ∧
    shown (imgFile search0 env1 clss0 (imgFile search0 env1 clss0 builders0 "fig.pdf".toList [("scale".toList, .str "2".toList)] "html".toList).2
      "fig.pdf".toList [("scale".toList, .str "3".toList)] "html".toList) ".html".toList =
      (.ok "/p/html/media/fig.svg".toList,
        [([.path (fig "fig.pdf".toList), .pair "scale".toList "2".toList], "/p/html/media/fig.svg".toList),
         ([.path (fig "fig.pdf".toList), .pair "scale".toList "3".toList], "/p/html/media/fig.svg".toList)]) :=
  ⟨by rfl, by rfl⟩

/-- An attribute without a value becomes a file to copy: the image `@img[border]{fig.svg}` is never copied, whatever the files are, as long as
there is no file `border`. -/
theorem C78_attribute_refuted :
    shown (imgFile search0 env1 clss0 builders0 "fig.svg".toList [("border".toList, .pos .any)] "html".toList) ".html".toList =
      (.ok "/p/html/media/fig.svg".toList,
        [([.path (fig "fig.svg".toList), .path (.plain (parse "border".toList))], "/p/html/media/fig.svg".toList)]) ∧
    ∀ (c : Decider.Cfg) (enc : Str → Decider.Bytes) (w : CopyFile.World), w.fs "border".toList = none →
      CopyFile.copyBuild c enc w [.path (toStr (fig "fig.svg".toList).full), .path (toStr (PyPath.plain (parse "border".toList)).full)]
        "/p/html/media/fig.svg".toList = (.ok .missingParameters, w) := by
  refine ⟨by rfl, fun c enc w h => ?_⟩
  have e1 : toStr (PyPath.plain (parse "border".toList)).full = "border".toList := by rfl
  have e2 : toStr (fig "fig.svg".toList).full = "/p/src/fig.svg".toList := by rfl
  rw [e1, e2]
  exact CopyFile.C68_missing w _ _ "border".toList (by simp) h (by decide) (by decide) (by simp)

end Verif.AddFile
