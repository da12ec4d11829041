import Verif.Spec.Terminal
import Verif.Lemmas.Checkers

/-!
# Lemmas on what the commands print
-/

namespace Verif.Terminal

open Verif Checkers

theorem times_single (c : Char) (n : Nat) : times [c] n = List.replicate n c := by
  induction n with
  | zero => rfl
  | succ n ih => rw [times, ih]; rfl

theorem there_iff (d : Dep) : available d = true ↔ There d := available_iff d

/-- What is said for a value of `available`. -/
def verdictOf (a : Option Bool) (needed : Bool) : Verdict :=
  match a, needed with
  | some true, _ => .pass
  | some false, true => .fail
  | some false, false => .missing
  | none, _ => .unknown

theorem singleCheck_eq (style : Str → Colour → Bool → Str) (msg status : Str) (c : Colour) (b : Bool) (f : Char) (level : Nat) :
    singleCheck style msg status c b [f] level = List.replicate (2 * level) ' ' ++ msg ++
      List.replicate (80 - (2 * level + msg.length) - ("[".toList ++ centre status 8 ++ "]  ".toList).length) f ++
      style ("[".toList ++ centre status 8 ++ "]  ".toList) c b := by
  have h : times " ".toList (2 * level) = List.replicate (2 * level) ' ' := times_single ' ' _
  simp only [singleCheck, fillString, h, times_single, Option.getD_none, Option.getD_some, List.length_append, List.length_replicate]

theorem isLine_check (style : Str → Colour → Bool → Str) (d : Dep) (a : Option Bool) (needed : Bool) (level : Nat)
    (hj : Judged needed d (verdictOf a needed)) : IsLine style (level, needed, d) (checkLine style (title d) a needed level) := by
  refine ⟨verdictOf a needed, List.replicate (80 - (2 * level + (title d).length) - 12) (filler (verdictOf a needed)), hj, ?_, ?_, ?_, ?_⟩
  · rcases a with _ | _ | _ <;> cases needed <;>
      exact singleCheck_eq style (title d) _ _ _ _ level
  · intro c hc
    exact List.eq_of_mem_replicate hc
  · have : (badge (verdictOf a needed)).length = 12 := by
      cases verdictOf a needed <;> rfl
    simp only [this, List.length_replicate]
    omega
  · have : (badge (verdictOf a needed)).length = 12 := by
      cases verdictOf a needed <;> rfl
    simp only [this]
    intro h
    have : 80 - (2 * level + (title d).length) - 12 = 0 := by omega
    rw [this]; rfl

theorem judged_group (needed : Bool) (k : Kind) (c : Str) (ds : List Dep) :
    Judged needed (.group k c ds) (verdictOf (some (available (.group k c ds))) needed) := by
  have h := there_iff (.group k c ds)
  cases ha : available (.group k c ds) with
  | true => exact .pass (h.mp ha)
  | false =>
    have hn : ¬ There (.group k c ds) := fun ht => by rw [h.mpr ht] at ha; cases ha
    cases needed with
    | true => exact .fail hn (fun _ e => by cases e) rfl
    | false => exact .missing hn (fun _ e => by cases e) rfl

theorem judged_prog (needed : Bool) (n : Str) (a : Option Bool) : Judged needed (.prog n a) (verdictOf a needed) := by
  rcases a with _ | _ | _
  · exact .unknown n rfl
  · have hn : ¬ There (.prog n (some false)) := fun h => by cases h with | prog _ _ h => cases h
    cases needed with
    | true => exact .fail hn (fun _ e => by cases e) rfl
    | false => exact .missing hn (fun _ e => by cases e) rfl
  · exact .pass (.prog _ _ rfl)

theorem each_append {R : α → β → Prop} : ∀ {l l' : List α} {m m' : List β}, Each R l m → Each R l' m' →
    Each R (l ++ l') (m ++ m')
  | _, _, _, _, .nil, h => h
  | _, _, _, _, .cons a t, h => .cons a (each_append t h)

mutual
theorem printDep_lines (style : Str → Colour → Bool → Str) (needed : Bool) (level : Nat) :
    ∀ d, Each (IsLine style) (shown needed level d) (printDep style needed level d)
  | .prog n a => by
    rw [shown, printDep]
    exact .cons (isLine_check style (.prog n a) a needed level (judged_prog needed n a)) .nil
  | .group .all c ds => by
    rw [shown, printDep]
    exact .cons (isLine_check style (.group .all c ds) _ needed level (judged_group needed .all c ds))
      (printDeps_lines style true (level + 1) ds)
  | .group .any c ds => by
    rw [shown, printDep]
    exact .cons (isLine_check style (.group .any c ds) _ needed level (judged_group needed .any c ds))
      (printDeps_lines style false (level + 1) ds)
  | .group .optional c ds => by
    rw [shown, printDep]
    exact .cons (isLine_check style (.group .optional c ds) _ needed level (judged_group needed .optional c ds))
      (printDeps_lines style false (level + 1) ds)

theorem printDeps_lines (style : Str → Colour → Bool → Str) (needed : Bool) (level : Nat) :
    ∀ ds, Each (IsLine style) (allShown needed level ds) (printDeps style needed level ds)
  | [] => .nil
  | d :: ds => by
    rw [allShown, printDeps]
    exact each_append (printDep_lines style needed level d) (printDeps_lines style needed level ds)
end

mutual
theorem shown_nodes (needed : Bool) (level : Nat) : ∀ d, (shown needed level d).map (fun x => (x.1, x.2.2)) = nodes level d
  | .prog n a => rfl
  | .group k c ds => by
    rw [shown, nodes, List.map_cons, allShown_nodes _ (level + 1) ds]

theorem allShown_nodes (needed : Bool) (level : Nat) :
    ∀ ds, (allShown needed level ds).map (fun x => (x.1, x.2.2)) = allNodes level ds
  | [] => rfl
  | d :: ds => by
    rw [allShown, allNodes, List.map_append, shown_nodes needed level d, allShown_nodes needed level ds]
end

theorem allShown_flatMap (needed : Bool) (level : Nat) (ds : List Dep) :
    allShown needed level ds = ds.flatMap (shown needed level) := by
  induction ds with
  | nil => rfl
  | cons d ds ih => rw [allShown, List.flatMap_cons, ih]

theorem printDeps_flatMap (style : Str → Colour → Bool → Str) (needed : Bool) (level : Nat) (ds : List Dep) :
    printDeps style needed level ds = ds.flatMap (printDep style needed level) := by
  induction ds with
  | nil => rfl
  | cons d ds ih => rw [printDeps, List.flatMap_cons, ih]

mutual
theorem cause (needed : Bool) (level : Nat) : ∀ d, ¬ There d →
    (∃ m nd n a, (m, nd, Dep.prog n a) ∈ shown needed level d ∧ a ≠ some true) ∨
    ∃ m nd c, (m, nd, Dep.group .any c []) ∈ shown needed level d
  | .prog n a, h => .inl ⟨level, needed, n, a, List.mem_cons_self .., fun e => h (.prog n a e)⟩
  | .group .optional c ds, h => absurd (.optional c ds) h
  | .group .all c ds, h => by
    have : ¬ ∀ d ∈ ds, There d := fun hd => h (.all c ds hd)
    rcases causes true (level + 1) ds this with ⟨m, nd, n, a, hm, ha⟩ | ⟨m, nd, c', hm⟩
    · exact .inl ⟨m, nd, n, a, List.mem_cons_of_mem _ hm, ha⟩
    · exact .inr ⟨m, nd, c', List.mem_cons_of_mem _ hm⟩
  | .group .any c [], _ => .inr ⟨level, needed, c, List.mem_cons_self ..⟩
  | .group .any c (d :: ds), h => by
    have : ¬ There d := fun hd => h (.any c _ d (List.mem_cons_self ..) hd)
    rcases cause false (level + 1) d this with ⟨m, nd, n, a, hm, ha⟩ | ⟨m, nd, c', hm⟩
    · exact .inl ⟨m, nd, n, a, List.mem_cons_of_mem _ (List.mem_append_left _ hm), ha⟩
    · exact .inr ⟨m, nd, c', List.mem_cons_of_mem _ (List.mem_append_left _ hm)⟩

theorem causes (needed : Bool) (level : Nat) : ∀ ds, (¬ ∀ d ∈ ds, There d) →
    (∃ m nd n a, (m, nd, Dep.prog n a) ∈ allShown needed level ds ∧ a ≠ some true) ∨
    ∃ m nd c, (m, nd, Dep.group .any c []) ∈ allShown needed level ds
  | [], h => absurd (fun _ hd => by cases hd) h
  | d :: ds, h => by
    cases ha : available d with
    | false =>
      have hn : ¬ There d := fun ht => by rw [(there_iff d).mpr ht] at ha; cases ha
      rcases cause needed level d hn with ⟨m, nd, n, a, hm, ha⟩ | ⟨m, nd, c', hm⟩
      · exact .inl ⟨m, nd, n, a, List.mem_append_left _ hm, ha⟩
      · exact .inr ⟨m, nd, c', List.mem_append_left _ hm⟩
    | true =>
      have ht := (there_iff d).mp ha
      have : ¬ ∀ d ∈ ds, There d := fun hd => h fun x hx => by
        rcases List.mem_cons.mp hx with rfl | hx
        · exact ht
        · exact hd x hx
      rcases causes needed level ds this with ⟨m, nd, n, a, hm, ha⟩ | ⟨m, nd, c', hm⟩
      · exact .inl ⟨m, nd, n, a, List.mem_append_right _ hm, ha⟩
      · exact .inr ⟨m, nd, c', List.mem_append_right _ hm⟩
end

/-! ### The table -/

mutual
theorem flatten_count (p : Nat → Prop) [DecidablePred p] : ∀ b, ((flatten b).filter fun i => p i).length = count p b
  | .builder i => by
    rw [flatten, count]
    by_cases h : p i
    · simp [h]
    · simp [h]
  | .composite i subs => by
    rw [flatten, count, ← flattenAll_count p subs]
    by_cases h : p i
    · simp [h]; omega
    · simp [h]

theorem flattenAll_count (p : Nat → Prop) [DecidablePred p] :
    ∀ bs, ((flattenAll bs).filter fun i => p i).length = countAll p bs
  | [] => rfl
  | b :: bs => by
    rw [flattenAll, countAll, List.filter_append, List.length_append, flatten_count p b, flattenAll_count p bs]
end

theorem flatten_total (b : B) : (flatten b).length = count (fun _ => True) b := by
  rw [← flatten_count (fun _ => True) b]
  exact (congrArg List.length (List.filter_eq_self.mpr fun _ _ => by simp)).symm

theorem count_pos (b : B) : count (fun _ => True) b ≠ 0 := by
  cases b with
  | builder i => simp [count]
  | composite i subs => simp [count]

/-- The columns of a table. -/
def col1 (E : Env σ) : Nat := max 11 E.name.length + 2
def col2 (E : Env σ) : Nat := col1 E + (max 11 (docsText E.docs).length + 2)

theorem newTable_eq (E : Env σ) : newTable E.name E.docs =
    ⟨E.name, docsText E.docs, [max 11 E.name.length + 2, max 11 (docsText E.docs).length + 2, 25]⟩ := by
  cases h : E.docs <;> rfl

theorem cells_in (E : Env σ) (a b c : Str) (ha : a.length ≤ max 11 E.name.length) (hb : b.length ≤ max 11 (docsText E.docs).length) :
    InColumns (col1 E) (col2 E)
      (cells ([a, b, c].zip [max 11 E.name.length + 2, max 11 (docsText E.docs).length + 2, 25])) a b c := by
  refine ⟨max 11 E.name.length + 2 - a.length, max 11 (docsText E.docs).length + 2 - b.length, 25 - c.length, ?_, ?_, ?_, ?_, ?_⟩
  · simp [cells, ljust, List.append_assoc]
  · simp only [col1]; omega
  · simp only [col2]; omega
  · omega
  · omega

theorem tableRow_eq (percent : Nat → Nat → Str) (E : Env σ) (s : σ) :
    ∃ line, tableRow percent (newTable E.name E.docs) (E.status s) (flatten E.root) = .ok [line] ∧
      IsRow percent E (col1 E) (col2 E) s line := by
  have hd : ((flatten E.root).filter fun b => E.status s b = "done".toList).length =
      count (fun i => E.status s i = "done".toList) E.root := flatten_count _ _
  rw [newTable_eq]
  simp only [tableRow, progressBuilders, hd, flatten_total]
  rw [if_neg (count_pos E.root)]
  exact ⟨_, rfl, cells_in E _ _ _ (by omega) (by omega)⟩

theorem tableHdr_eq (E : Env σ) : ∃ hdr bar, tableHdr (newTable E.name E.docs) = .ok [hdr, bar] ∧
    InColumns (col1 E) (col2 E) hdr "Environment".toList "Number Docs".toList "Done / Total Builds (%)".toList ∧
    InColumns (col1 E) (col2 E) bar (List.replicate 11 '-') (List.replicate 11 '-') (List.replicate 23 '-') := by
  rw [newTable_eq]
  refine ⟨_, _, rfl, cells_in E _ _ _ ?_ ?_, cells_in E _ _ _ ?_ ?_⟩
  · exact Nat.le_max_left ..
  · exact Nat.le_max_left ..
  · exact Nat.le_max_left ..
  · exact Nat.le_max_left ..

theorem rowIf_true (percent : Nat → Nat → Str) (E : Env σ) (s : σ) :
    ∃ line, rowIf percent true E s = .ok [line] ∧ IsRow percent E (col1 E) (col2 E) s line := tableRow_eq percent E s

theorem loop_progress (percent : Nat → Nat → Str) (E : Env σ) {st : Str} {s : σ} {l : List σ} (h : Passes E st s l) :
    ∀ n, l.length ≤ n → ∃ rows, loop percent true E n st s = some (.ok (rows, l.getLast?.getD s)) ∧
      Each (IsRow percent E (col1 E) (col2 E)) l rows := by
  induction h with
  | stop st s h1 h2 =>
    intro n _
    refine ⟨[], ?_, .nil⟩
    have hst : ¬ (st = "ready".toList ∨ st = "building".toList) := fun h => h.elim h1 h2
    cases n <;> (rw [loop, if_neg hst]; rfl)
  | pass st s l hst _ ih =>
    intro n hn
    cases n with
    | zero => simp at hn
    | succ n =>
      obtain ⟨rows, hl, hr⟩ := ih n (by simpa using hn)
      obtain ⟨line, e, hline⟩ := rowIf_true percent E (E.build s).2
      refine ⟨line :: rows, ?_, .cons hline hr⟩
      rw [loop, if_pos hst]
      simp only [e, hl]
      cases l <;> simp [List.getLast?_cons]

theorem loop_quiet (percent : Nat → Nat → Str) (E : Env σ) {st : Str} {s : σ} {l : List σ} (h : Passes E st s l) :
    ∀ n, l.length ≤ n → loop percent false E n st s = some (.ok ([], l.getLast?.getD s)) := by
  induction h with
  | stop st s h1 h2 =>
    intro n _
    have hst : ¬ (st = "ready".toList ∨ st = "building".toList) := fun h => h.elim h1 h2
    cases n <;> (rw [loop, if_neg hst]; rfl)
  | pass st s l hst _ ih =>
    intro n hn
    cases n with
    | zero => simp at hn
    | succ n =>
      have hl := ih n (by simpa using hn)
      rw [loop, if_pos hst]
      simp only [rowIf, hl]
      cases l <;> simp [List.getLast?_cons]

theorem loop_passes (percent : Nat → Nat → Str) (progress : Bool) (E : Env σ) : ∀ n st s r,
    loop percent progress E n st s = some r → ∃ l, Passes E st s l ∧ l.length ≤ n := by
  intro n
  induction n with
  | zero =>
    intro st s r h
    rw [loop] at h
    by_cases hst : st = "ready".toList ∨ st = "building".toList
    · rw [if_pos hst] at h; cases h
    · exact ⟨[], .stop st s (fun e => hst (.inl e)) (fun e => hst (.inr e)), Nat.le_refl _⟩
  | succ n ih =>
    intro st s r h
    rw [loop] at h
    by_cases hst : st = "ready".toList ∨ st = "building".toList
    · rw [if_pos hst] at h
      have hrow : ∃ row, rowIf percent progress E (E.build s).2 = .ok row := by
        cases progress with
        | true => obtain ⟨line, e, _⟩ := rowIf_true percent E (E.build s).2; exact ⟨_, e⟩
        | false => exact ⟨[], rfl⟩
      obtain ⟨row, e⟩ := hrow
      simp only [e] at h
      cases hl : loop percent progress E n (E.build s).1 (E.build s).2 with
      | none => rw [hl] at h; cases h
      | some r' =>
        obtain ⟨l, hp, hlen⟩ := ih _ _ _ hl
        exact ⟨_, .pass st s l hst hp, by simpa using hlen⟩
    · exact ⟨[], .stop st s (fun e => hst (.inl e)) (fun e => hst (.inr e)), by simp⟩

end Verif.Terminal
