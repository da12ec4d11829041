import Verif.Spec.Rewrite
import Verif.Lemmas.Paths
import Verif.Lemmas.Links
import Verif.Lemmas.Scanner

/-! # Lemmas for links in templates -/

namespace Verif.Rewrite

open Verif Verif.Paths Verif.Links

theorem slashed_eq (h : Slashed text names) : names ≠ [] ∧ join ['/'] names = text := by
  induction h with
  | one s _ => exact ⟨by simp, rfl⟩
  | cons s r l _ _ ih =>
    refine ⟨by simp, ?_⟩
    rw [join_cons _ _ _ ih.1, ih.2]; simp

theorem splitlines_one (brk : Char → Bool) (s : Str) (h0 : s ≠ []) (h : ∀ c ∈ s, brk c = false) : Utils.splitlines brk s = [s] := by
  unfold Utils.splitlines
  induction s with
  | nil => exact absurd rfl h0
  | cons c t ih =>
    rw [Utils.splitlinesGo]
    simp only [Bool.false_and, Bool.false_eq_true, if_false]
    rw [if_neg (by rw [h c List.mem_cons_self]; simp)]
    cases t with
    | nil => rfl
    | cons d t => rw [ih (by simp) fun x hx => h x (List.mem_cons_of_mem _ hx)]

variable {sp brk : Char → Bool} {isFile : Path → Except PathError Bool}

theorem stub_text (h : Stub sp brk stub text names) : text ≠ [] ∧ text.head? ≠ some '/' ∧ text.getLast? ≠ some '/' := by
  obtain ⟨h1, h2⟩ := slashed_eq h.slashed
  subst h2
  refine ⟨?_, join_head _ h.good, ?_⟩
  · intro he
    have := join_head names h.good
    cases names with
    | nil => exact h1 rfl
    | cons n l =>
      have hn := (h.good n List.mem_cons_self).1
      cases l with
      | nil => exact hn he
      | cons m l => rw [join_cons _ _ _ (by simp)] at he; simp at he
  · intro he
    obtain ⟨s, c, h3, h4⟩ := join_last names h1 fun n hn => ⟨(h.good n hn).1, (h.good n hn).2.2⟩
    rw [h3, List.getLast?_concat] at he
    cases he
    exact h4 rfl

theorem stub_strip (h : Stub sp brk stub text names) : strip (· = '/') stub = text := by
  obtain ⟨a, b, rfl⟩ := h.around
  obtain ⟨_, h1, h2⟩ := stub_text h
  refine Scanner.strip_eq _ _ _ _ ?_ ?_ ?_
  · intro c hc
    rcases List.mem_append.1 hc with hc | hc <;> simp [List.eq_of_mem_replicate hc]
  · intro c hc
    refine decide_eq_false ?_
    rintro rfl; exact h1 hc
  · intro c hc
    refine decide_eq_false ?_
    rintro rfl; exact h2 hc

theorem stub_parse (h : Stub sp brk stub text names) : parse (firstLine sp brk text) = ⟨false, names⟩ := by
  obtain ⟨h0, _, _⟩ := stub_text h
  have h1 : strip sp text = text := by
    have := Scanner.strip_eq sp [] text [] (by simp) h.first h.last
    simpa using this
  unfold firstLine
  rw [h1, splitlines_one brk text h0 h.line]
  obtain ⟨h2, h3⟩ := slashed_eq h.slashed
  have : toStr ⟨false, names⟩ = text := by simp [toStr, h2, h3]
  show parse text = _
  rw [← this]
  exact parse_toStr ⟨false, names⟩ h.good

theorem candidate_sub (root target : Path) (names : List Str) (hr : Good root) (ht : Good target) (hc : CleanTarget target)
    (hn : ∀ n ∈ names, IsName n) :
    candidate (.target ⟨root, target, ⟨false, []⟩⟩) ⟨false, names⟩ = .ok (.target ⟨root, target, ⟨false, names⟩⟩) := by
  have hd : div ⟨false, []⟩ ⟨false, names⟩ = ⟨false, names⟩ := by simp [div]
  have := mkTarget_rel root target ⟨false, names⟩ hr ht hc hn rfl
  simp only [candidate, TargetPath.useSubpath, hd, this]
  rfl

theorem full_target (root target : Path) (names : List Str) (ht : target.abs = false) :
    (PyPath.target ⟨root, target, ⟨false, names⟩⟩).full = ⟨root.abs, root.parts ++ target.parts ++ names⟩ := by
  simp [PyPath.full, TargetPath.full, div, ht]

end Verif.Rewrite
