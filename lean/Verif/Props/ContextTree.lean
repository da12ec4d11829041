import Verif.Lemmas.ContextTreeStep
import Verif.Props.Context
import Verif.Model.Utils

/-!
# C06, C07: context updates at any nesting
-/

set_option linter.unusedSimpArgs false
set_option linter.unusedVariables false

namespace Verif.Context

open Verif Verif.Context.Spec

/-- C06. `match_update`, for contexts and changes with lists, sets and dicts inside each other to any depth, whose objects occur at
one place only. If the update succeeds, the context holds a value that the rules of `Updated` allow, with at most five dicts
inside each other, and no object but those of the context has changed. If it raises, no value is allowed by the rules. -/
theorem C06_update_nested (P : Py) (hP : ∀ s, ((P.strToDict s).map Prod.fst).Nodup) (replace : List Str) (overwrite : Bool) (h : Heap)
    (ctx changes : Nat) (F G : List (Str × Tree)) (fp fpc : List Nat) (hF : Reads h (.dict F) (.ref ctx) fp)
    (hG : Reads h (.dict G) (.ref changes) fpc) (hsep : (fp ++ fpc).Nodup) :
    match update P replace overwrite h ctx changes with
    | .ok h' => (∃ F' fp', Reads h' (.dict F') (.ref ctx) fp' ∧ fp'.Nodup ∧ Updated P 5 replace overwrite F G F') ∧
        ∀ a < h.length, a ∉ fp → h'[a]? = h[a]?
    | .error _ => ∀ F', ¬ Updated P 5 replace overwrite F G F' := by
  rw [List.nodup_append] at hsep
  obtain ⟨n1, n2, n3⟩ := hsep
  obtain ⟨c', d, fpd, e0, e1, rfl, hdn, hl⟩ := hG
  cases e0
  have := matchUpdate_good P hP maxLeft replace overwrite h ctx d F G fp fpd hF n1 hl hdn (List.nodup_cons.1 n2).2
    (fun a ha hm => n3 a ha a (by simp [hm]) rfl)
  have hent : entries h changes = d := by simp [entries, e1]
  unfold update
  rw [hent]
  simp only at this
  revert this
  generalize matchUpdate P maxLeft replace overwrite h ctx d (Dict.keys d) = r
  cases r with
  | error x =>
    intro this F' hF'
    exact this (.dict F') ⟨F', rfl, hF'⟩
  | ok h' =>
    rintro ⟨t', fp', r1, r2, r3, r4, r5, F', rfl, r6⟩
    exact ⟨⟨F', fp', r1, r2, r6⟩, r4⟩

/-- C07. An update changes nothing of the changes: whatever is nested in them, they hold the same afterwards. -/
theorem C07_changes_untouched_nested (P : Py) (hP : ∀ s, ((P.strToDict s).map Prod.fst).Nodup) (replace : List Str) (overwrite : Bool)
    (h : Heap) (ctx changes : Nat) (F G : List (Str × Tree)) (fp fpc : List Nat) (hF : Reads h (.dict F) (.ref ctx) fp)
    (hG : Reads h (.dict G) (.ref changes) fpc) (hsep : (fp ++ fpc).Nodup) (h' : Heap)
    (hok : update P replace overwrite h ctx changes = .ok h') : Reads h' (.dict G) (.ref changes) fpc := by
  have := C06_update_nested P hP replace overwrite h ctx changes F G fp fpc hF hG hsep
  rw [hok] at this
  refine reads_frame h h' _ _ _ hG fun a ha => this.2 a (reads_bound h _ _ _ hG a ha) ?_
  intro hm
  exact (List.nodup_append.1 hsep).2.2 a hm a ha rfl

theorem converted_kind (P : Py) (a : Atom) (c : Tree) (a' : Atom) (h : Converted P a c a') : kindAtom a' = kindAtom a := by
  cases h <;> rfl

theorem emptied_kind (t : Tree) : (emptied t).kind = t.kind := by cases t <;> rfl

theorem changed_kind (P : Py) (upd) (t c r : Tree) (h : Changed P upd t c r) : r.kind = t.kind := by
  cases h with
  | atom a a' c hc => exact converted_kind P _ _ _ hc
  | list => rfl
  | set => rfl
  | dict => rfl

/-- C06. The rules say: entries without a change stay, missing entries are added, other entries keep their kind, and their value if
nothing is to be overwritten. -/
theorem C06_rules (P : Py) (n : Nat) (replace : List Str) (overwrite : Bool) (F G F' : List (Str × Tree))
    (h : Updated P n replace overwrite F G F') (k : Str) :
    (lookup G k = none → lookup F' k = lookup F k) ∧
    (lookup F k = none → lookup F' k = lookup G k) ∧
    (∀ v, lookup F k = some v → ∃ v', lookup F' k = some v' ∧ v'.kind = v.kind) ∧
    (overwrite = false → ∀ v, lookup F k = some v → lookup F' k = some v) := by
  cases n with
  | zero => exact absurd h (by simp [Updated])
  | succ n =>
    have hk := h.2 k
    generalize lookup F k = a at *
    generalize lookup G k = b at *
    generalize lookup F' k = c at *
    cases hk with
    | unchanged => exact ⟨fun _ => rfl, fun e => e, fun v e => ⟨v, e, rfl⟩, fun _ v e => e⟩
    | new t => exact ⟨by simp, by simp, by simp, by simp⟩
    | kept o c hf => exact ⟨by simp, by simp, fun v e => ⟨v, e, rfl⟩, fun _ v e => e⟩
    | changed o c r ht hc =>
      refine ⟨by simp, by simp, ?_, by simp [ht]⟩
      rintro v ⟨⟩
      refine ⟨r, rfl, ?_⟩
      rw [changed_kind P _ _ _ _ hc]
      split
      · exact emptied_kind _
      · rfl

/-- C06. The same at every path of keys: what is there keeps its kind, however deep, unless it is inside an entry that is replaced. -/
theorem C06_kinds_along_paths (P : Py) (n : Nat) (replace : List Str) (overwrite : Bool) (F G F' : List (Str × Tree))
    (h : Updated P n replace overwrite F G F') (k : Str) (ks : List Str) (hk : k ∉ replace) (v : Tree)
    (hv : at? (.dict F) (k :: ks) = some v) : ∃ v', at? (.dict F') (k :: ks) = some v' ∧ v'.kind = v.kind := by
  induction n generalizing replace overwrite F G F' k ks with
  | zero => exact absurd h (by simp [Updated])
  | succ n ih =>
    have he := h.2 k
    simp only [at?] at hv ⊢
    generalize lookup F k = a at *
    generalize lookup G k = b at *
    generalize lookup F' k = c at *
    cases he with
    | unchanged => exact ⟨v, hv, rfl⟩
    | new t => simp at hv
    | kept o c hf => exact ⟨v, hv, rfl⟩
    | changed o c r ht hc =>
      simp only [hk, decide_false, Bool.false_eq_true, if_false] at hc
      simp only [Option.bind_some] at hv ⊢
      cases ks with
      | nil =>
        simp only [at?, Option.some.injEq] at hv ⊢
        subst hv
        exact ⟨r, rfl, changed_kind P _ _ _ _ hc⟩
      | cons k' ks =>
        cases hc with
        | atom => simp [at?] at hv
        | list => simp [at?] at hv
        | set => simp [at?] at hv
        | dict d e d' _ he hu => exact ih [] true d e d' hu k' ks (by simp) hv

/-- A context with a dict in a dict, and changes for it. -/
def nestedHeap : Heap :=
  [.dict [("style".toList, .ref 1), ("paths".toList, .ref 4)],
   .dict [("box".toList, .ref 2), ("size".toList, .atom (.int 2))],
   .dict [("colors".toList, .ref 3)],
   .list [.atom (.str "red".toList)],
   .list [.ref 5],
   .dict [("deep".toList, .atom .none)],
   .dict [("style".toList, .ref 7), ("new".toList, .ref 9)],
   .dict [("box".toList, .ref 8), ("size".toList, .atom (.str "7".toList))],
   .dict [("colors".toList, .atom (.str "blue".toList)), ("width".toList, .atom (.str "3".toList))],
   .set [.atom (.str "x".toList)]]

def nestedF : List (Str × Tree) :=
  [("style".toList, .dict [("box".toList, .dict [("colors".toList, .list [.atom (.str "red".toList)])]), ("size".toList, .atom (.int 2))]),
   ("paths".toList, .list [.dict [("deep".toList, .atom .none)]])]

def nestedG : List (Str × Tree) :=
  [("style".toList, .dict [("box".toList, .dict [("colors".toList, .atom (.str "blue".toList)), ("width".toList, .atom (.str "3".toList))]),
      ("size".toList, .atom (.str "7".toList))]),
   ("new".toList, .set [.str "x".toList])]

theorem nested_reads : Reads nestedHeap (.dict nestedF) (.ref 0) [0, 1, 2, 3, 4, 5] ∧
    Reads nestedHeap (.dict nestedG) (.ref 6) [6, 7, 8, 9] := by
  constructor
  · refine ⟨0, _, [1, 2, 3, 4, 5], rfl, rfl, rfl, by decide, .ref 1, _, [1, 2, 3], [4, 5], rfl, rfl, ?_, .ref 4, _, [4, 5], [], rfl, rfl, ?_, rfl, rfl⟩
    · refine ⟨1, _, [2, 3], rfl, rfl, rfl, by decide, .ref 2, _, [2, 3], [], rfl, rfl, ?_, .atom (.int 2), _, [], [], rfl, rfl, ⟨rfl, rfl⟩, rfl, rfl⟩
      refine ⟨2, _, [3], rfl, rfl, rfl, by decide, .ref 3, _, [3], [], rfl, rfl, ?_, rfl, rfl⟩
      exact ⟨3, _, [], rfl, rfl, rfl, _, _, [], [], rfl, rfl, ⟨rfl, rfl⟩, rfl, rfl⟩
    · refine ⟨4, _, [5], rfl, rfl, rfl, .ref 5, _, [5], [], rfl, rfl, ?_, rfl, rfl⟩
      exact ⟨5, _, [], rfl, rfl, rfl, by decide, _, _, [], [], rfl, rfl, ⟨rfl, rfl⟩, rfl, rfl⟩
  · refine ⟨6, _, [7, 8, 9], rfl, rfl, rfl, by decide, .ref 7, _, [7, 8], [9], rfl, rfl, ?_, .ref 9, _, [9], [], rfl, rfl, ⟨9, rfl, rfl, rfl⟩, rfl, rfl⟩
    refine ⟨7, _, [8], rfl, rfl, rfl, by decide, .ref 8, _, [8], [], rfl, rfl, ?_, _, _, [], [], rfl, rfl, ⟨rfl, rfl⟩, rfl, rfl⟩
    exact ⟨8, _, [], rfl, rfl, rfl, by decide, _, _, [], [], rfl, rfl, ⟨rfl, rfl⟩, _, _, [], [], rfl, rfl, ⟨rfl, rfl⟩, rfl, rfl⟩

/-- The hypotheses are met, and the update of the sample reaches the list three levels down. -/
example : ∃ h', update samplePy [] true nestedHeap 0 6 = .ok h' ∧
    (∃ F' fp', Reads h' (.dict F') (.ref 0) fp' ∧ fp'.Nodup ∧ Updated samplePy 5 [] true nestedF nestedG F') ∧
    h'[3]? = some (.list [.atom (.str "blue".toList), .atom (.str "red".toList)]) ∧
    h'[2]? = some (.dict [("colors".toList, .ref 3), ("width".toList, .atom (.str "3".toList))]) ∧
    h'[1]? = some (.dict [("box".toList, .ref 2), ("size".toList, .atom (.int 7))]) := by
  have := C06_update_nested samplePy (by intro s; simp [samplePy]) [] true nestedHeap 0 6 nestedF nestedG _ _ nested_reads.1 nested_reads.2 (by decide)
  exact ⟨_, rfl, this.1, rfl, rfl, rfl⟩

/-- Finding: two entries that hold the same list change together, so an entry without a change may change. -/
theorem C06_aliased_entries_change_together :
    (update samplePy [] true [.dict [("a".toList, .ref 1), ("b".toList, .ref 1)], .list [],
      .dict [("a".toList, .atom (.str "x".toList))]] 0 2).toOption.map (fun h => (getKey h 0 "b".toList, h[1]?)) =
      some (some (.ref 1), some (.list [.atom (.str "x".toList)])) := rfl

/-- Every depth beyond five is refused: the update raises. -/
example : update samplePy [] true
    [.dict [("a".toList, .ref 1)], .dict [("a".toList, .ref 2)], .dict [("a".toList, .ref 3)], .dict [("a".toList, .ref 4)],
     .dict [("a".toList, .ref 5)], .dict [],
     .dict [("a".toList, .ref 7)], .dict [("a".toList, .ref 8)], .dict [("a".toList, .ref 9)], .dict [("a".toList, .ref 10)],
     .dict [("a".toList, .ref 11)], .dict []] 0 6 = .error .tooDeep := rfl

end Verif.Context

namespace Verif.Utils

theorem dictStep_nodup (sp : Char → Bool) (st : DictState) (line : Str) (h : st.d.keys.Nodup) : (dictStep sp st line).d.keys.Nodup := by
  unfold dictStep appendTo
  split
  · split
    · exact Dict.keys_set_nodup _ _ _ h
    · exact Dict.keys_set_nodup _ _ _ h
  · exact Dict.keys_set_nodup _ _ _ h
  · exact Dict.keys_set_nodup _ _ _ h
  · exact h

/-- The dicts that texts are read as have no key twice, as the theorems above assume. -/
theorem strToDict_nodup (sp brk : Char → Bool) (s : Str) (q : Bool) : ((strToDict sp brk s q).map Prod.fst).Nodup := by
  have : ∀ (ls : List Str) (st : DictState), st.d.keys.Nodup → (ls.foldl (dictStep sp) st).d.keys.Nodup := by
    intro ls
    induction ls with
    | nil => exact fun _ h => h
    | cons l ls ih => exact fun st h => ih _ (dictStep_nodup sp st l h)
  have := this (splitlines brk s) ⟨[], none⟩ (by simp [Dict.keys])
  simpa [strToDict, dictLines, Dict.keys, Function.comp_def] using this

end Verif.Utils
