import Verif.Spec.AddFile
import Verif.Props.Paths
import Verif.Props.Builder

namespace Verif.AddFile

open Verif Verif.Paths Verif.Builder

theorem isThere_iff (isFile : Path → Except PathError Bool) (l : Path) : isThere isFile l = true ↔ isFile l = .ok true := by
  unfold isThere
  cases isFile l with
  | error e => simp
  | ok b => cases b <;> simp

/-- Searching for a parameter never fails, and what is found exists. -/
theorem findArg (c : Search) (hps : ∀ p ∈ c.paths, GoodPy p) (a : Arg) (ha : ∀ p, a = .path p → Good p.full) :
    ∃ r, findFile c.sp c.brk c.isFile a.fileArg c.paths false = .ok r ∧ (∀ q, r = some q → c.isFile q.full = .ok true) ∧
      (∀ p, a = .path p → c.isFile p.full = .ok true → r = some p) ∧ (∀ n v, a = .pair n v → r = none) := by
  have key : ∀ path : PyPath, Good path.full → ∃ r, findPath c.isFile path c.paths false = .ok r ∧
      (∀ q, r = some q → c.isFile q.full = .ok true) ∧ (c.isFile path.full = .ok true → r = some path) := by
    intro path hg
    obtain ⟨r, h1, h2, h3⟩ := findPath_quiet c.isFile path hg c.paths hps
    refine ⟨r, h1, ?_, fun h => h3 ((isThere_iff _ _).2 h)⟩
    intro q hq
    subst hq
    have := List.find?_some h2.symm
    exact (isThere_iff _ _).1 this
  cases a with
  | path p =>
    obtain ⟨r, h1, h2, h3⟩ := key p (ha p rfl)
    exact ⟨r, h1, h2, fun q hq => by cases hq; exact h3, fun _ _ h => by cases h⟩
  | text s =>
    obtain ⟨r, h1, h2, h3⟩ := key (.plain (parse (firstLine c.sp c.brk s))) (parse_good _)
    exact ⟨r, h1, h2, (by nofun), (by nofun)⟩
  | pair n v => exact ⟨none, rfl, (by nofun), (by nofun), fun _ _ _ => rfl⟩

/-- The attributes, after the search. -/
theorem found_attrs (c : Search) (hps : ∀ p ∈ c.paths, GoodPy p) (d : Attrs.ADict) :
    ∃ l, found c (attrArgs d) = .ok l ∧ List.Forall₂ (Passed c.isFile false) d l := by
  induction d with
  | nil => exact ⟨[], rfl, .nil⟩
  | cons kv d ih =>
    obtain ⟨l, h1, h2⟩ := ih
    obtain ⟨n, v⟩ := kv
    cases v with
    | str v =>
      obtain ⟨r, g1, g2, g3, g4⟩ := findArg c hps (.pair n v) (fun _ h => by cases h)
      have := g4 n v rfl
      subst this
      refine ⟨.pair n v :: l, ?_, .cons (.value n v) h2⟩
      show found c (.pair n v :: attrArgs d) = _
      unfold found
      rw [g1, h1]; rfl
    | pos i =>
      obtain ⟨r, g1, g2, g3, g4⟩ := findArg c hps (.text n) (fun _ h => by cases h)
      refine ⟨(r.map Arg.path).getD (.text n) :: l, ?_, .cons ?_ h2⟩
      · show found c (.text n :: attrArgs d) = _
        unfold found
        rw [g1, h1]
      · cases r with
        | none => exact .text n i rfl
        | some q => exact .found n i q (g2 q rfl)

theorem found_file (c : Search) (hps : ∀ p ∈ c.paths, GoodPy p) (p : PyPath) (hp : GoodPy p) (hf : c.isFile p.full = .ok true)
    (d : Attrs.ADict) :
    ∃ l, found c (.path p :: attrArgs d) = .ok (.path p :: l) ∧ List.Forall₂ (Passed c.isFile false) d l := by
  obtain ⟨l, h1, h2⟩ := found_attrs c hps d
  obtain ⟨r, g1, g2, g3, g4⟩ := findArg c hps (.path p) (fun _ h => by cases h; exact good_full p hp)
  have := g3 p rfl hf
  subst this
  refine ⟨l, ?_, h2⟩
  unfold found
  rw [g1, h1]; rfl

theorem passed_asPath (isFile : Path → Except PathError Bool) (d : Attrs.ADict) (l : List Arg)
    (h : List.Forall₂ (Passed isFile false) d l) : List.Forall₂ (Passed isFile true) d (l.map Arg.asPath) := by
  induction h with
  | nil => exact .nil
  | cons h _ ih =>
    refine .cons ?_ ih
    cases h with
    | value n v => exact .value n v
    | found n i p hp => exact .found n i p hp
    | text n i _ => exact .asPath n i rfl
    | asPath n i h => cases h

theorem tracked_of (u : Str) (exts : List Str) (h : Shows u exts) : trackedDeps.get? ('.' :: u) = some exts := by
  cases h <;> decide

theorem not_pdf (u : Str) (exts : List Str) (h : Shows u exts) : receiver ('.' :: u) = '.' :: u := by
  cases h <;> decide

theorem dot_of (u : Str) (exts : List Str) (h : Shows u exts) (t : Str) (ht : t = u ∨ t = '.' :: u) : Targets.dot t = '.' :: u := by
  rcases ht with rfl | rfl
  · cases h <;> decide
  · simp [Targets.dot]

theorem dir_of (u : Str) (exts : List Str) (h : Shows u exts) (p : PyPath) : DirFor (some ('.' :: u)) p ⟨false, [u]⟩ := by
  apply DirFor.dotted
  · cases h <;> exact ⟨by decide, by decide, by decide⟩
  · cases h <;> decide
  · cases h <;> decide

theorem shows_ext (u : Str) (exts : List Str) (h : Shows u exts) (x : Str) (hx : x ∈ exts) :
    x ≠ ".*".toList ∧ '/' ∉ x ∧ x.head? = some '.' := by
  have : ∀ x ∈ [".css".toList, ".svg".toList, ".png".toList, ".pdf".toList], x ≠ ".*".toList ∧ '/' ∉ x ∧ x.head? = some '.' := by decide
  apply this
  revert x
  cases h <;> decide

theorem suffix_has (p : PyPath) (d : Path) (n st e : Str) (h : HasSub p (child d n)) (hs : Splits n st e) :
    suffix p.full = extension e := by
  have hn : name p.full = n := by
    have hnd : ∀ r : Path, name (div r (child d n)) = n := by
      intro r
      unfold div
      split
      · exact name_child d n
      · simp [name, child]
    cases h with
    | plain _ _ => exact name_child d n
    | source r _ _ => exact hnd r
    | target r t _ _ => exact hnd (div r t)
  have hsuf : suffix p.full = suffix (child d n) := by unfold suffix; rw [hn, name_child]
  rw [hsuf]
  unfold extension
  rcases hs with ⟨rfl, h1, h2, h3⟩ | ⟨rfl, h1, rfl, h3⟩
  · rw [suffix_ext d st e h1 h2 h3, if_neg h2]
  · rw [suffix_noext d _ h3, if_pos rfl]

/-- A file of the text of an image exists. -/
theorem findFiles_there (c : Search) (hps : ∀ p ∈ c.paths, GoodPy p) (s : Str) (l : List PyPath)
    (h : findFiles c.sp c.brk c.isFile s c.paths = .ok l) (p : PyPath) (hp : p ∈ l) : c.isFile p.full = .ok true := by
  obtain ⟨r, h1, h2⟩ := C33_files c.sp c.brk c.isFile s c.paths hps
  rw [h] at h1
  cases h1
  have hm : p.full ∈ l.map PyPath.full := List.mem_map_of_mem hp
  rw [h2, List.mem_filterMap] at hm
  obtain ⟨x, _, hx⟩ := hm
  exact (isThere_iff _ _).1 (List.find?_some hx)

theorem imgFile_found (c : Search) (env : Env) (clss : List Cls) (builders : Dict Str Target) (s : Str) (d : Attrs.ADict) (target : Str)
    (p : PyPath) (rest : List PyPath) (h : findFiles c.sp c.brk c.isFile s c.paths = .ok (p :: rest)) :
    imgFile c env clss builders s d target = addFile c env clss builders (.path p :: attrArgs d) (some (suffix p.full)) target := by
  unfold imgFile contentFile
  rw [h]; rfl

theorem addFile_ok (c : Search) (env : Env) (clss : List Cls) (builders : Dict Str Target) (args : List Arg) (i : Option Str)
    (u : Str) (exts : List Str) (hu : Shows u exts) (t : Str) (ht : t = u ∨ t = '.' :: u) (cache : Bool) (bs : List Build)
    (hb : builders.get? ('.' :: u) = some ⟨cache, true, bs⟩) (x : Build)
    (hx : addBuild c env clss cache args i ('.' :: u) = .ok x) :
    ∃ b', addFile c env clss builders args i t = (.ok x.out, b') ∧ OneMore builders b' ('.' :: u) x := by
  refine ⟨builders.set ('.' :: u) ⟨cache, true, bs ++ [x]⟩, ?_, ?_, ⟨cache, true, bs⟩, hb, ?_⟩
  · unfold addFile
    simp only [dot_of u exts hu t ht, not_pdf u exts hu, hb, hx, Bool.true_eq_false, if_false]
  · intro v hv
    rw [Dict.get?_set, if_neg (fun h => hv h.symm)]
  · rw [Dict.get?_set_self]

theorem addFile_error (c : Search) (env : Env) (clss : List Cls) (builders : Dict Str Target) (args : List Arg) (i : Option Str)
    (u : Str) (exts : List Str) (hu : Shows u exts) (t : Str) (ht : t = u ∨ t = '.' :: u) (cache : Bool) (bs : List Build)
    (hb : builders.get? ('.' :: u) = some ⟨cache, true, bs⟩) (x : Err)
    (hx : addBuild c env clss cache args i ('.' :: u) = .error x) :
    addFile c env clss builders args i t = (.error x, builders) := by
  unfold addFile
  simp only [dot_of u exts hu t ht, not_pdf u exts hu, hb, hx, Bool.true_eq_false, if_false]

end Verif.AddFile
