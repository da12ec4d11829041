import Verif.Lemmas.Terminal

/-!
# C92, C93: what the commands print
-/

namespace Verif.Terminal

open Verif Checkers

/-! ### The report of the dependencies -/

/-- A checker with a program that is there, alternatives of which one is there, and a program that was not looked for. -/
def sampleChecker : Dep :=
  .group .all "html".toList [.group .all "executables".toList [.prog "python".toList (some true), .prog "tool".toList (some false)],
    .group .any "images".toList [.prog "asy".toList (some false), .prog "convert".toList (some true)],
    .group .optional "more".toList [.prog "x".toList none]]

/-- The report of the example, without colours. -/
example : (printCheckers (fun s _ _ => s) [sampleChecker]).map String.ofList =
    ["  Checking required dependencies for 'html'.........................[  FAIL  ]  ",
     "    Checking required dependencies for 'executables'................[  FAIL  ]  ",
     "      Checking dependency 'python'                                  [  PASS  ]  ",
     "      Checking dependency 'tool'....................................[  FAIL  ]  ",
     "    Checking alternative dependencies for 'images'                  [  PASS  ]  ",
     "      Checking dependency 'asy'                                     [MISSING ]  ",
     "      Checking dependency 'convert'                                 [  PASS  ]  ",
     "    Checking alternative dependencies for 'more'                    [  PASS  ]  ",
     "      Checking dependency 'x'                                       [UNKNOWN ]  "] := by
  decide +kernel

/-- C92. The report has one line for each list, program and package of the checkers, at any depth and in their order,
with the verdict for it. -/
theorem C92_lines (style : Str → Colour → Bool → Str) (checkers : List Dep) :
    Each (IsLine style) (allShown true 1 checkers) (printCheckers style checkers) ∧
      (allShown true 1 checkers).map (fun x => (x.1, x.2.2)) = allNodes 1 checkers := by
  refine ⟨?_, allShown_nodes true 1 checkers⟩
  have := printDeps_lines style true 1 checkers
  rw [printDeps_flatMap] at this
  exact this

/-- C92. The verdicts are exclusive, and each dependency has one. -/
theorem C92_verdict (needed : Bool) (d : Dep) : ∃ v, Judged needed d v ∧ ∀ w, Judged needed d w → w = v := by
  have key : ∀ v w, Judged needed d v → Judged needed d w → w = v := by
    have there : ∀ n, d = .prog n none → ¬ There d := by
      rintro n rfl h
      cases h with | prog _ _ h => cases h
    intro v w hv hw
    cases hv with
    | pass h =>
      cases hw with
      | pass => rfl
      | unknown n e => exact absurd h (there n e)
      | fail h' => exact absurd h h'
      | missing h' => exact absurd h h'
    | unknown n e =>
      cases hw with
      | pass h => exact absurd h (there n e)
      | unknown => rfl
      | fail _ h' => exact absurd e (h' n)
      | missing _ h' => exact absurd e (h' n)
    | fail h1 h2 h3 =>
      cases hw with
      | pass h => exact absurd h h1
      | unknown n e => exact absurd e (h2 n)
      | fail => rfl
      | missing _ _ h' => rw [h3] at h'; cases h'
    | missing h1 h2 h3 =>
      cases hw with
      | pass h => exact absurd h h1
      | unknown n e => exact absurd e (h2 n)
      | fail _ _ h' => rw [h3] at h'; cases h'
      | missing => rfl
  have : ∃ v, Judged needed d v := by
    cases d with
    | prog n a => exact ⟨_, judged_prog needed n a⟩
    | group k c ds => exact ⟨_, judged_group needed k c ds⟩
  obtain ⟨v, hv⟩ := this
  exact ⟨v, hv, fun w hw => key v w hv hw⟩

/-- C92. If styles do not change the width, each line with room for its text is as wide as the others, so that the
verdicts are below each other. -/
theorem C92_width (width : Str → Nat) (style : Str → Colour → Bool → Str) (hw : ∀ a s c b, width (a ++ style s c b) = a.length + s.length)
    (checkers : List Dep) (line : Str) (h : line ∈ printCheckers style checkers) :
    ∃ level d v, (level, d) ∈ allNodes 1 checkers ∧ (∃ a, line = a ++ style (badge v) (colour v) (bold v)) ∧
      (2 * level + (title d).length ≤ 68 → width line = 80) := by
  obtain ⟨hl, hn⟩ := C92_lines style checkers
  have : ∀ {l : List (Nat × Bool × Dep)} {m : List Str}, Each (IsLine style) l m → line ∈ m → ∃ x ∈ l, IsLine style x line := by
    intro l m e
    induction e with
    | nil => intro h; cases h
    | cons r _ ih =>
      intro h
      rcases List.mem_cons.mp h with rfl | h
      · exact ⟨_, List.mem_cons_self .., r⟩
      · obtain ⟨x, hx, hr⟩ := ih h
        exact ⟨x, List.mem_cons_of_mem _ hx, hr⟩
  obtain ⟨⟨level, nd, d⟩, hx, v, gap, _, e, _, hroom, _⟩ := this hl h
  refine ⟨level, d, v, ?_, ⟨_, e⟩, ?_⟩
  · rw [← hn]
    exact List.mem_map.mpr ⟨_, hx, rfl⟩
  · intro hfit
    have hb : (badge v).length = 12 := by cases v <;> rfl
    have := hroom (by simp only [hb]; omega)
    rw [e, hw]
    simp only [List.length_append, List.length_replicate, hb] at this ⊢
    omega

/-- Without colours, the width is the length. -/
example : ∀ (a s : Str) (c : Colour) (b : Bool), List.length (a ++ (fun s _ _ => s : Str → Colour → Bool → Str) s c b) = a.length + s.length :=
  fun _ _ _ _ => List.length_append

/-- C92. A verdict that is not a pass has a cause among the lines of the report: a program or package below that is
missing or unknown, or a list of alternatives without any. -/
theorem C92_cause (style : Str → Colour → Bool → Str) (d : Dep) (h : ¬ There d) :
    ∃ level needed e, ∃ line ∈ printDep style true 1 d, (level, e) ∈ nodes 1 d ∧ IsLine style (level, needed, e) line ∧
      ((∃ n a, e = .prog n a ∧ ¬ Judged needed e .pass) ∨ ∃ c, e = .group .any c []) := by
  have hn : ∃ x ∈ shown true 1 d, (∃ n a, x.2.2 = .prog n a ∧ ¬ Judged x.2.1 x.2.2 .pass) ∨ ∃ c, x.2.2 = .group .any c [] := by
    rcases cause true 1 d h with ⟨m, nd, n, a, hm, ha⟩ | ⟨m, nd, c, hm⟩
    · refine ⟨_, hm, .inl ⟨n, a, rfl, fun hj => ?_⟩⟩
      cases hj with
      | pass ht => cases ht with | prog _ _ e => exact ha e
    · exact ⟨_, hm, .inr ⟨c, rfl⟩⟩
  obtain ⟨⟨level, needed, e⟩, hx, hc⟩ := hn
  have key : ∀ {l : List (Nat × Bool × Dep)} {m : List Str}, Each (IsLine style) l m → (level, needed, e) ∈ l →
      ∃ line ∈ m, IsLine style (level, needed, e) line := by
    intro l m he
    induction he with
    | nil => intro h; cases h
    | cons r _ ih =>
      intro h
      rcases List.mem_cons.mp h with rfl | h
      · exact ⟨_, List.mem_cons_self .., r⟩
      · obtain ⟨x, hx, hr⟩ := ih h
        exact ⟨x, List.mem_cons_of_mem _ hx, hr⟩
  obtain ⟨line, hline, hr⟩ := key (printDep_lines style true 1 d) hx
  refine ⟨level, needed, e, line, hline, ?_, hr, hc⟩
  rw [← shown_nodes true 1 d]
  exact List.mem_map.mpr ⟨_, hx, rfl⟩

/-- The checker of the example is not met. -/
example : ¬ There sampleChecker := fun h => by
  have := (there_iff sampleChecker).mpr h
  revert this
  decide

/-- C92. A part that fails is one that its list needs: the list does not pass. -/
theorem C92_fail (k : Kind) (c : Str) (ds : List Dep) (d : Dep) (hd : d ∈ ds) (needed : Bool)
    (h : Judged (k = .all) d .fail) : ¬ Judged needed (.group k c ds) .pass := by
  intro hp
  cases h with
  | fail hn _ hk =>
    have hk : k = .all := of_decide_eq_true hk
    subst hk
    cases hp with
    | pass ht =>
      cases ht with
      | all _ _ hall => exact hn (hall d hd)

/-- The parts of the example that fail. -/
example : Judged (decide (Kind.all = .all)) (.prog "tool".toList (some false)) .fail :=
  judged_prog true "tool".toList (some false)

/-- Finding: a line can fail although the dependencies of the checker are met. A list of alternatives has a list of
programs, one of which is missing; its line says that it fails, as if it were required. -/
theorem C92_nested_refuted :
    ∃ d, Judged true d .pass ∧ ∃ x ∈ shown true 1 d, Judged x.2.1 x.2.2 .fail := by
  refine ⟨.group .any "images".toList [.group .all "tools".toList [.prog "a".toList (some false)], .prog "b".toList (some true)],
    .pass (.any _ _ (.prog "b".toList (some true)) (by simp) (.prog _ _ rfl)), (3, true, .prog "a".toList (some false)), ?_,
    judged_prog true "a".toList (some false)⟩
  exact List.mem_cons_of_mem _ (List.mem_append_left _ (List.mem_cons_of_mem _ (List.mem_append_left _ (List.mem_cons_self ..))))

/-! ### The table of a build -/

/-- A build with three builders, of which one more is done in each pass. -/
def sampleEnv : Env Nat where
  name := "a-long-environment".toList
  docs := some 12
  root := .composite 2 [.builder 0, .builder 1]
  build s := (if s + 1 < 3 then "building".toList else "done".toList, s + 1)
  status s i := if i < s then "done".toList else "ready".toList

theorem sampleEnv_passes : Passes sampleEnv "ready".toList 0 [1, 2, 3] :=
  .pass _ _ _ (.inl rfl) (.pass _ _ _ (.inr rfl) (.pass _ _ _ (.inr rfl) (.stop _ _ (by decide) (by decide))))

/-- What is printed for the example. -/
example : (buildEnv (fun _ _ => "?".toList) true sampleEnv 5 0).map (fun r => r.toOption.map fun x => x.1.map String.ofList) =
    some (some ["Environment         Number Docs  Done / Total Builds (%)  ",
      "-----------         -----------  -----------------------  ",
      "a-long-environment  12           0 / 3 (?%)               ",
      "a-long-environment  12           1 / 3 (?%)               ",
      "a-long-environment  12           2 / 3 (?%)               ",
      "a-long-environment  12           3 / 3 (?%)               ",
      "Build: done"]) := by
  decide +kernel

/-- C93. With progress, a build prints the header of a table, a row for the state at the start and after each pass, and
the status at the end. The columns of all lines are below each other, and the rows count the builders of the project that
are done. -/
theorem C93_progress (percent : Nat → Nat → Str) (E : Env σ) (s : σ) (l : List σ) (h : Passes E (E.status s (rootId E.root)) s l)
    (n : Nat) (hn : l.length ≤ n) :
    ∃ hdr bar rows c1 c2, buildEnv percent true E n s = some (.ok ([hdr, bar] ++ rows ++
        ["Build: ".toList ++ E.status (l.getLast?.getD s) (rootId E.root)], l.getLast?.getD s)) ∧
      InColumns c1 c2 hdr "Environment".toList "Number Docs".toList "Done / Total Builds (%)".toList ∧
      InColumns c1 c2 bar (List.replicate 11 '-') (List.replicate 11 '-') (List.replicate 23 '-') ∧
      Each (IsRow percent E c1 c2) (s :: l) rows := by
  obtain ⟨hdr, bar, e, hh, hb⟩ := tableHdr_eq E
  obtain ⟨line, el, hline⟩ := rowIf_true percent E s
  obtain ⟨rows, er, hr⟩ := loop_progress percent E h n hn
  refine ⟨hdr, bar, line :: rows, col1 E, col2 E, ?_, hh, hb, .cons hline hr⟩
  have hs : startLines percent true E s = .ok ([hdr, bar] ++ [line]) := by
    simp only [startLines, e, el]
    rfl
  simp only [buildEnv, hs, er]
  simp

/-- C93. The table does not change a build: without it there are the same passes, and the same status at the end. -/
theorem C93_quiet (percent : Nat → Nat → Str) (E : Env σ) (s : σ) (l : List σ) (h : Passes E (E.status s (rootId E.root)) s l)
    (n : Nat) (hn : l.length ≤ n) :
    buildEnv percent false E n s = some (.ok (["Build: ".toList ++ E.status (l.getLast?.getD s) (rootId E.root)], l.getLast?.getD s)) := by
  simp only [buildEnv, startLines, loop_quiet percent E h n hn]
  rfl

/-- C93. The command ends only after the passes that are needed, and nothing it prints makes it fail. -/
theorem C93_total (percent : Nat → Nat → Str) (progress : Bool) (E : Env σ) (s : σ) (n : Nat) (r : Except TermError (List Str × σ))
    (h : buildEnv percent progress E n s = some r) :
    ∃ l lines, Passes E (E.status s (rootId E.root)) s l ∧ l.length ≤ n ∧ r = .ok (lines, l.getLast?.getD s) := by
  have hs : ∃ x, startLines percent progress E s = .ok x := by
    cases progress with
    | false => exact ⟨[], rfl⟩
    | true =>
      obtain ⟨hdr, bar, e, _, _⟩ := tableHdr_eq E
      obtain ⟨line, el, _⟩ := rowIf_true percent E s
      exact ⟨[hdr, bar] ++ [line], by simp only [startLines, e, el]; rfl⟩
  obtain ⟨x, hx⟩ := hs
  have hl : ∃ r', loop percent progress E n (E.status s (rootId E.root)) s = some r' := by
    cases hl : loop percent progress E n (E.status s (rootId E.root)) s with
    | none => simp only [buildEnv, hx, hl] at h; cases h
    | some r' => exact ⟨r', rfl⟩
  obtain ⟨r', hr'⟩ := hl
  obtain ⟨l, hp, hlen⟩ := loop_passes percent progress E n _ s r' hr'
  cases progress with
  | true =>
    obtain ⟨hdr, bar, rows, _, _, e, _⟩ := C93_progress percent E s l hp n hlen
    exact ⟨l, _, hp, hlen, Option.some.inj (h.symm.trans e)⟩
  | false => exact ⟨l, _, hp, hlen, Option.some.inj (h.symm.trans (C93_quiet percent E s l hp n hlen))⟩

end Verif.Terminal
