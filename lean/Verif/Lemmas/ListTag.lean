import Verif.Spec.ListTag
import Verif.Lemmas.Paragraphs

/-!
# Lemmas about lists
-/

namespace Verif.ListTag

open Verif

variable (sp : Char → Bool)

theorem min_exists (P : Nat → Prop) : ∀ n, P n → ∃ m, P m ∧ ∀ k, P k → m ≤ k := by
  intro n
  induction n using Nat.strongRecOn with
  | _ n ih =>
    intro h
    by_cases hm : ∃ k, P k ∧ k < n
    · obtain ⟨k, hk, hlt⟩ := hm; exact ih k hlt hk
    · exact ⟨n, h, fun k hk => Nat.le_of_not_lt fun hlt => hm ⟨k, hk, hlt⟩⟩

theorem isBullet_iff (c : Char) : isBullet c = true ↔ c = '*' ∨ c = '-' := by simp [isBullet]

theorem bulletAt_some (hsp : ∀ c, isBullet c = true → sp c = false) (w : Str) (b : Char) (c : Str)
    (hw : ∀ x ∈ w, sp x = true) (hb : isBullet b = true) : bulletAt sp (w ++ b :: c) = some w.length := by
  have h1 : (w ++ b :: c).takeWhile sp = w := by
    induction w with
    | nil => simp [hsp b hb]
    | cons x w ih =>
      have := ih fun y hy => hw y (by simp [hy])
      rw [List.cons_append, List.takeWhile_cons_of_pos (hw x (by simp)), this]
  have h2 : (w ++ b :: c).dropWhile sp = b :: c := by
    induction w with
    | nil => simp [hsp b hb]
    | cons x w ih =>
      have h1' : (w ++ b :: c).takeWhile sp = w := by
        rw [List.cons_append, List.takeWhile_cons_of_pos (hw x (by simp))] at h1
        exact (List.cons.inj h1).2
      have := ih (fun y hy => hw y (by simp [hy])) h1'
      rw [List.cons_append, List.dropWhile_cons_of_pos (hw x (by simp)), this]
  unfold bulletAt
  rw [h1, h2]
  simp [hb]

theorem bulletAt_spec (s : Str) (n : Nat) (h : bulletAt sp s = some n) :
    ∃ w b c, s = w ++ b :: c ∧ (∀ x ∈ w, sp x = true) ∧ isBullet b = true ∧ n = w.length := by
  unfold bulletAt at h
  split at h
  · rename_i b c hd
    split at h
    · rename_i hb
      simp only [Option.some.injEq] at h
      refine ⟨s.takeWhile sp, b, c, ?_, Para.takeWhile_all sp s, hb, h.symm⟩
      rw [← hd, List.takeWhile_append_dropWhile]
    · simp at h
  · simp at h

theorem cutGo_skip (x s : Str) : cutGo sp (x ++ s) false x.length = cutGo sp s false 0 := by
  induction x with
  | nil => rfl
  | cons c x ih => rw [List.cons_append, List.length_cons, cutGo, ih]

theorem lineStart_cons (bol : Bool) (c : Char) (a : Str) (h : LineStart (decide (c = '\n')) a) : LineStart bol (c :: a) := by
  rcases h with ⟨rfl, h⟩ | ⟨a', rfl⟩
  · exact Or.inr ⟨[], by simpa using h⟩
  · exact Or.inr ⟨c :: a', rfl⟩

theorem lineStart_of_cons (bol : Bool) (c : Char) (a : Str) (h : LineStart bol (c :: a)) : LineStart (decide (c = '\n')) a := by
  rcases h with ⟨h, _⟩ | ⟨a', h⟩
  · simp at h
  · cases a' with
    | nil => simp at h; exact Or.inl ⟨h.2, by simp [h.1]⟩
    | cons d a' => simp at h; exact Or.inr ⟨a', h.2⟩

theorem cutGo_none (s : Str) (bol : Bool) (h : ∀ a w b c, s = a ++ w ++ b :: c → ¬ BulletBetween sp bol a w b) :
    cutGo sp s bol 0 = (s, []) := by
  induction s generalizing bol with
  | nil => rfl
  | cons x s ih =>
    rw [cutGo]
    have hn : (if bol then bulletAt sp (x :: s) else none) = none := by
      cases bol with
      | false => rfl
      | true =>
        cases hb : bulletAt sp (x :: s) with
        | none => simp [hb]
        | some n =>
          exfalso
          obtain ⟨w, b, c, he, hw, hb', _⟩ := bulletAt_spec sp _ n hb
          exact h [] w b c (by simpa using he) ⟨Or.inl ⟨rfl, rfl⟩, hw, (isBullet_iff b).1 hb'⟩
    rw [hn]
    dsimp only
    rw [ih (decide (x = '\n')) fun a w b c he hb =>
      h (x :: a) w b c (by simp [he]) ⟨lineStart_cons bol x a hb.1, hb.2⟩]

theorem cutGo_of_cut (hsp : ∀ c, isBullet c = true → sp c = false) {bol : Bool} {s pre : Str} {items : List (Str × Str)}
    (h : Cut sp bol s pre items) : cutGo sp s bol 0 = (pre, items) := by
  induction h with
  | last h => exact cutGo_none sp _ _ h
  | bullet hb hfirst hc ih =>
    rename_i bol pre w b rest txt items
    induction pre generalizing bol with
    | nil =>
      have hbol : bol = true := by
        rcases hb.1 with ⟨_, h⟩ | ⟨a', h⟩
        · exact h
        · simp at h
      subst hbol
      have hat := bulletAt_some sp hsp w b rest hb.2.1 ((isBullet_iff b).2 hb.2.2)
      rw [List.nil_append]
      cases w with
      | nil =>
        simp only [List.nil_append, List.length_nil] at hat ⊢
        rw [cutGo]
        simp only [if_true, hat, List.take_zero, ih]
      | cons x w =>
        rw [List.cons_append] at hat ⊢
        rw [cutGo]
        simp only [if_true, hat]
        have : cutGo sp (w ++ b :: rest) false (x :: w).length = cutGo sp rest false 0 := by
          have := cutGo_skip sp (w ++ [b]) rest
          simpa using this
        rw [this, ih]
        simp
    | cons x pre ihp =>
      rw [List.cons_append, List.cons_append, cutGo]
      have hn : (if bol then bulletAt sp (x :: (pre ++ w ++ b :: rest)) else none) = none := by
        cases bol with
        | false => rfl
        | true =>
          cases hb' : bulletAt sp (x :: (pre ++ w ++ b :: rest)) with
          | none => simp [hb']
          | some n =>
            exfalso
            obtain ⟨w', b', c', he, hw', hb'', _⟩ := bulletAt_spec sp _ n hb'
            have := hfirst [] w' b' c' (by simpa using he) ⟨Or.inl ⟨rfl, rfl⟩, hw', (isBullet_iff b').1 hb''⟩
            simp at this
      rw [hn]
      dsimp only
      rw [ihp (bol := decide (x = '\n')) ⟨lineStart_of_cons bol x pre hb.1, hb.2⟩ fun a w' b' c' he hbb => by
        have := hfirst (x :: a) w' b' c' (by simp at he; simp [he]) ⟨lineStart_cons bol x a hbb.1, hbb.2⟩
        simpa using this]

theorem cut_exists (n : Nat) : ∀ (s : Str) (bol : Bool), s.length ≤ n → ∃ pre items, Cut sp bol s pre items := by
  induction n with
  | zero =>
    intro s bol hs
    have : s = [] := List.eq_nil_of_length_eq_zero (Nat.le_zero.1 hs)
    subst this
    exact ⟨[], [], .last (by intro a w b c h; simp at h)⟩
  | succ n ih =>
    intro s bol hs
    by_cases h : ∃ m, ∃ a w b c, s = a ++ w ++ b :: c ∧ BulletBetween sp bol a w b ∧ a.length = m
    · obtain ⟨m, hm⟩ := h
      obtain ⟨m, ⟨a, w, b, c, rfl, hb, hl⟩, hmin⟩ := min_exists (fun m => ∃ a w b c, s = a ++ w ++ b :: c ∧ BulletBetween sp bol a w b ∧ a.length = m) m hm
      obtain ⟨txt, items, hc⟩ := ih c false (by simp at hs; omega)
      exact ⟨a, (w, txt) :: items, .bullet hb (fun a' w' b' c' he hb' => by
        rw [hl]; exact hmin a'.length ⟨a', w', b', c', he, hb', rfl⟩) hc⟩
    · exact ⟨s, [], .last fun a w b c he hb => h ⟨_, a, w, b, c, he, hb, rfl⟩⟩

/-! ### Levels -/

theorem foldl_min_le {α : Type} (es : List (Nat × α)) (m : Nat) :
    es.foldl (fun m e => min m e.1) m ≤ m ∧ ∀ e ∈ es, es.foldl (fun m e => min m e.1) m ≤ e.1 := by
  induction es generalizing m with
  | nil => simp
  | cons e es ih =>
    rw [List.foldl_cons]
    have := ih (min m e.1)
    refine ⟨by omega, ?_⟩
    intro x hx
    rcases List.mem_cons.1 hx with rfl | hx
    · omega
    · exact this.2 x hx

theorem foldl_min_mem {α : Type} (es : List (Nat × α)) (m : Nat) :
    es.foldl (fun m e => min m e.1) m = m ∨ ∃ e ∈ es, e.1 = es.foldl (fun m e => min m e.1) m := by
  induction es generalizing m with
  | nil => simp
  | cons e es ih =>
    rw [List.foldl_cons]
    rcases ih (min m e.1) with h | ⟨x, hx, h⟩
    · rcases Nat.le_total m e.1 with hle | hle
      · exact Or.inl (by omega)
      · exact Or.inr ⟨e, by simp, by omega⟩
    · exact Or.inr ⟨x, by simp [hx], h⟩

theorem minLevel_le {α : Type} (es : List (Nat × α)) : ∀ e ∈ es, minLevel es ≤ e.1 := by
  cases es with
  | nil => simp
  | cons e es =>
    intro x hx
    rcases List.mem_cons.1 hx with rfl | hx
    · exact (foldl_min_le es _).1
    · exact (foldl_min_le es _).2 x hx

theorem minLevel_mem {α : Type} (es : List (Nat × α)) (h : es ≠ []) : ∃ e ∈ es, e.1 = minLevel es := by
  cases es with
  | nil => exact absurd rfl h
  | cons e es =>
    rcases foldl_min_mem es e.1 with h | ⟨x, hx, h⟩
    · exact ⟨e, by simp, h.symm⟩
    · exact ⟨x, by simp [hx], h⟩

/-! ### Nesting -/

/-- The groups of `xhtml_list`, cut at each element of the level. -/
theorem groupAdj_counted {α : Type} (lvl : Nat) (es : List (Nat × α)) : ∀ n,
    (∀ e es', es = e :: es' → e.1 = lvl) →
    groupAdj (counted lvl n es) = match es with
      | [] => []
      | e :: es' => (n + 1, e :: es'.takeWhile (fun x => !decide (x.1 = lvl))) ::
          groupAdj (counted lvl (n + 1) (es'.dropWhile (fun x => !decide (x.1 = lvl)))) := by
  -- an element of the level starts a group
  have start : ∀ (e : Nat × α) (es : List (Nat × α)) n, e.1 = lvl →
      ∃ g gs, groupAdj (counted lvl n (e :: es)) = (n + 1, e :: g) :: gs := by
    intro e es n he
    rw [counted, groupAdj]
    simp only [he, if_true]
    split
    · exact ⟨[], [], rfl⟩
    · split
      · exact ⟨_, _, rfl⟩
      · exact ⟨[], _, rfl⟩
  -- elements of other levels go to the group before them
  have run : ∀ (es : List (Nat × α)) (e : Nat × α) n,
      groupAdj ((n + 1, e) :: counted lvl (n + 1) es) =
        (n + 1, e :: es.takeWhile (fun x => !decide (x.1 = lvl))) ::
          groupAdj (counted lvl (n + 1) (es.dropWhile (fun x => !decide (x.1 = lvl)))) := by
    intro es
    induction es with
    | nil => intro e n; simp [counted, groupAdj]
    | cons e' es ih =>
      intro e n
      by_cases he : e'.1 = lvl
      · obtain ⟨g, gs, hg⟩ := start e' es (n + 1) he
        rw [List.takeWhile_cons_of_neg (by simp [he]), List.dropWhile_cons_of_neg (by simp [he]), groupAdj, hg]
        simp
      · rw [List.takeWhile_cons_of_pos (by simp [he]), List.dropWhile_cons_of_pos (by simp [he]), groupAdj]
        have := ih e' n
        rw [counted]
        simp only [he, if_false]
        rw [this]
        simp
  intro n h
  cases es with
  | nil => rfl
  | cons e es =>
    rw [counted]
    simp only [h e es rfl, if_true]
    exact run es e n

/-- `xhtml_list` without the counter. -/
theorem xhtmlList_cons {α : Type} (fuel : Nat) (e : Nat × α) (es : List (Nat × α)) :
    ∀ r, r = (match es.dropWhile (fun x => !decide (x.1 = e.1)) with | [] => [] | d :: ds => xhtmlList (fuel + 1) (d :: ds)) →
    xhtmlList (fuel + 1) (e :: es) =
      .li e.2 :: (if (es.takeWhile (fun x => !decide (x.1 = e.1))).isEmpty then [] else
        [.sub (xhtmlList fuel (es.takeWhile (fun x => !decide (x.1 = e.1))))]) ++ r := by
  -- the number of the count does not matter
  have shift : ∀ (lvl : Nat) (es : List (Nat × α)) (n : Nat),
      (groupAdj (counted lvl n es)).map (·.2) = (groupAdj (counted lvl 0 es)).map (·.2) := by
    have gen : ∀ (lvl : Nat) (es : List (Nat × α)) (n m : Nat),
        groupAdj (counted lvl (m + n) es) = (groupAdj (counted lvl m es)).map fun g => (g.1 + n, g.2) := by
      intro lvl es
      induction es with
      | nil => intro n m; rfl
      | cons e es ih =>
        intro n m
        rw [counted, counted]
        have hk : (if e.1 = lvl then m + n + 1 else m + n) = (if e.1 = lvl then m + 1 else m) + n := by split <;> omega
        rw [hk, groupAdj, groupAdj, ih]
        generalize (groupAdj (counted lvl (if e.1 = lvl then m + 1 else m) es)) = gs
        generalize (if e.1 = lvl then m + 1 else m) = m'
        cases gs with
        | nil => rfl
        | cons g gs =>
          obtain ⟨k', g⟩ := g
          rw [List.map_cons]
          by_cases hg : m' = k'
          · simp [hg]
          · simp [hg]
    intro lvl es n
    have := gen lvl es n 0
    rw [Nat.zero_add] at this
    rw [this, List.map_map]
    rfl
  have fm : ∀ (gs : List (Nat × List (Nat × α))) (f : List (Nat × α) → List (Node α)),
      (gs.flatMap fun g => f g.2) = (gs.map (·.2)).flatMap f := by
    intro gs f
    rw [List.flatMap_map]
  intro r hr
  rw [xhtmlList]
  rw [groupAdj_counted e.1 (e :: es) 0 (by intro a b h; simp at h; rw [← h.1])]
  dsimp only
  rw [List.flatMap_cons]
  show groupNodes _ (e :: _) ++ _ = _
  rw [groupNodes]
  congr 1
  rw [hr]
  cases hd : es.dropWhile (fun x => !decide (x.1 = e.1)) with
  | nil => simp [counted, groupAdj]
  | cons d ds =>
    have hdl : d.1 = e.1 := by
      have := List.head?_dropWhile_not (fun x : Nat × α => !decide (x.1 = e.1)) es
      rw [hd] at this
      simpa using this
    dsimp only
    rw [xhtmlList]
    rw [hdl, fm, fm, shift]

theorem items_append {α : Type} (d : Nat) (a b : List (Node α)) : Node.items d (a ++ b) = Node.items d a ++ Node.items d b := by
  induction a with
  | nil => simp [Node.items]
  | cons n a ih => simp [Node.items, ih]

theorem items_sub_opt {α : Type} (d : Nat) (l : List (Nat × α)) (ns : List (Node α)) (hn : l = [] → ns = []) :
    Node.items d (if l.isEmpty then [] else [.sub ns]) = Node.items (d + 1) ns := by
  cases l with
  | nil => simp [hn rfl, Node.items]
  | cons x l => simp [Node.items, Node.items1]

theorem xhtmlList_nil {α : Type} (fuel : Nat) : xhtmlList fuel ([] : List (Nat × α)) = [] := by
  cases fuel <;> rfl

/-- `xhtml_list` without the counter. -/
theorem xhtmlList_cons' {α : Type} (fuel : Nat) (e : Nat × α) (es : List (Nat × α)) :
    xhtmlList (fuel + 1) (e :: es) =
      .li e.2 :: (if (es.takeWhile (fun x => !decide (x.1 = e.1))).isEmpty then [] else
        [.sub (xhtmlList fuel (es.takeWhile (fun x => !decide (x.1 = e.1))))]) ++
        xhtmlList (fuel + 1) (es.dropWhile (fun x => !decide (x.1 = e.1))) := by
  apply xhtmlList_cons
  split
  · rename_i h; rw [h, xhtmlList_nil]
  · rename_i h; rw [h]

theorem items_xhtmlList {α : Type} (n : Nat) : ∀ (fuel : Nat) (es : List (Nat × α)) (d : Nat), es.length ≤ n → es.length ≤ fuel →
    (Node.items d (xhtmlList fuel es)).map (·.2) = es.map (·.2) := by
  induction n with
  | zero =>
    intro fuel es d h _
    have : es = [] := List.eq_nil_of_length_eq_zero (Nat.le_zero.1 h)
    subst this
    rw [xhtmlList_nil]; rfl
  | succ n ih =>
    intro fuel es d h hf
    cases es with
    | nil => rw [xhtmlList_nil]; rfl
    | cons e es =>
      cases fuel with
      | zero => simp at hf
      | succ fuel =>
        simp only [List.length_cons] at h hf
        have ht := (List.takeWhile_sublist (l := es) (fun x => !decide (x.1 = e.1))).length_le
        have hd := (List.dropWhile_sublist (l := es) (fun x => !decide (x.1 = e.1))).length_le
        rw [xhtmlList_cons', List.cons_append, Node.items, Node.items1, List.singleton_append, items_append,
          items_sub_opt d _ _ (fun h => by rw [h, xhtmlList_nil])]
        rw [List.map_cons, List.map_append, ih fuel _ _ (by omega) (by omega), ih (fuel + 1) _ _ (by omega) (by omega),
          ← List.map_append, List.takeWhile_append_dropWhile, List.map_cons]

theorem stepsUp_takeWhile {α : Type} (q : Nat × α → Bool) (p : Nat) (es : List (Nat × α)) (h : StepsUp p es) :
    StepsUp p (es.takeWhile q) := by
  induction es generalizing p with
  | nil => trivial
  | cons e es ih =>
    rw [List.takeWhile_cons]
    split
    · exact ⟨h.1, ih e.1 h.2⟩
    · trivial

theorem stepsUp_dropWhile {α : Type} (q : Nat × α → Bool) (p : Nat) (es : List (Nat × α)) (h : StepsUp p es)
    (e : Nat × α) (es' : List (Nat × α)) (hd : es.dropWhile q = e :: es') : StepsUp e.1 es' := by
  induction es generalizing p with
  | nil => simp at hd
  | cons x es ih =>
    rw [List.dropWhile_cons] at hd
    split at hd
    · exact ih x.1 h.2 hd
    · simp only [List.cons.injEq] at hd
      obtain ⟨rfl, rfl⟩ := hd
      exact h.2

theorem depth_xhtmlList {α : Type} (n : Nat) : ∀ (fuel : Nat) (es : List (Nat × α)) (d : Nat), es.length ≤ n → es.length ≤ fuel →
    WellNested d es → Node.items d (xhtmlList fuel es) = es := by
  induction n with
  | zero =>
    intro fuel es d h _ _
    have : es = [] := List.eq_nil_of_length_eq_zero (Nat.le_zero.1 h)
    subst this
    rw [xhtmlList_nil]; rfl
  | succ n ih =>
    intro fuel es d h hf hw
    cases es with
    | nil => rw [xhtmlList_nil]; rfl
    | cons e es =>
      cases fuel with
      | zero => simp at hf
      | succ fuel =>
        simp only [List.length_cons] at h hf
        obtain ⟨rfl, hs, hall⟩ := hw
        have ht := (List.takeWhile_sublist (l := es) (fun x => !decide (x.1 = e.1))).length_le
        have hd := (List.dropWhile_sublist (l := es) (fun x => !decide (x.1 = e.1))).length_le
        have hw1 : WellNested (e.1 + 1) (es.takeWhile (fun x => !decide (x.1 = e.1))) := by
          have hge : ∀ x ∈ es.takeWhile (fun x => !decide (x.1 = e.1)), e.1 + 1 ≤ x.1 := by
            intro x hx
            have h1 := hall x ((List.takeWhile_sublist _).subset hx)
            have h2 : x.1 ≠ e.1 := by
              have : ∀ (q : Nat × α → Bool) (l : List (Nat × α)), ∀ y ∈ l.takeWhile q, q y = true := by
                intro q l
                induction l with
                | nil => simp
                | cons z l ih =>
                  intro y hy
                  rw [List.takeWhile_cons] at hy
                  split at hy
                  · rcases List.mem_cons.1 hy with rfl | hy
                    · assumption
                    · exact ih y hy
                  · simp at hy
              have := this _ _ x hx
              simpa using this
            omega
          have hst := stepsUp_takeWhile (fun x => !decide (x.1 = e.1)) e.1 es hs
          generalize es.takeWhile (fun x => !decide (x.1 = e.1)) = l at hge hst
          cases l with
          | nil => trivial
          | cons y l =>
            have h1 := hge y (by simp)
            have h2 : y.1 = e.1 + 1 := by have := hst.1; omega
            exact ⟨h2, h2 ▸ hst.2, fun x hx => hge x (by simp [hx])⟩
        have hw2 : WellNested e.1 (es.dropWhile (fun x => !decide (x.1 = e.1))) := by
          have hst := stepsUp_dropWhile (fun x => !decide (x.1 = e.1)) e.1 es hs
          have hhd := List.head?_dropWhile_not (fun x : Nat × α => !decide (x.1 = e.1)) es
          have hge : ∀ x ∈ es.dropWhile (fun x => !decide (x.1 = e.1)), e.1 ≤ x.1 :=
            fun x hx => hall x ((List.dropWhile_sublist _).subset hx)
          generalize es.dropWhile (fun x => !decide (x.1 = e.1)) = l at hge hst hhd
          cases l with
          | nil => trivial
          | cons y l =>
            have h2 : y.1 = e.1 := by simpa using hhd
            exact ⟨h2, h2 ▸ hst y l rfl, fun x hx => hge x (by simp [hx])⟩
        rw [xhtmlList_cons', List.cons_append, Node.items, Node.items1, List.singleton_append, items_append,
          items_sub_opt e.1 _ _ (fun h => by rw [h, xhtmlList_nil]),
          ih fuel _ _ (by omega) (by omega) hw1, ih (fuel + 1) _ _ (by omega) (by omega) hw2,
          List.takeWhile_append_dropWhile]

/-! ### Cleaning -/

theorem cleanGo_skip (x s : Str) : cleanGo sp (x ++ s) x.length = cleanGo sp s 0 := by
  induction x with
  | nil => rfl
  | cons c x ih => rw [List.cons_append, List.length_cons, cleanGo, ih]

/-- At the start of a run of spaces, the run is replaced; else the character is kept. -/
theorem cleanGo_cons (c : Char) (s : Str) : cleanGo sp (c :: s) 0 =
    if '\n' ∈ ((c :: s).takeWhile sp).dropLast then ' ' :: cleanGo sp ((c :: s).dropWhile sp) 0 else c :: cleanGo sp s 0 := by
  rw [cleanGo, multiAt]
  by_cases h : '\n' ∈ ((c :: s).takeWhile sp).dropLast
  · rw [if_pos h, if_pos h]
    dsimp only
    have hc : sp c = true := by
      cases hc : sp c with
      | true => rfl
      | false => simp [hc] at h
    rw [List.takeWhile_cons_of_pos hc, List.dropWhile_cons_of_pos hc]
    have := cleanGo_skip sp (s.takeWhile sp) (s.dropWhile sp)
    rw [List.takeWhile_append_dropWhile] at this
    simp [this]
  · rw [if_neg h, if_neg h]

theorem cleanGo_filter (hs : sp ' ' = true) (n : Nat) : ∀ s : Str, s.length ≤ n →
    (cleanGo sp s 0).filter (fun c => !sp c) = s.filter (fun c => !sp c) := by
  induction n with
  | zero =>
    intro s h
    have : s = [] := List.eq_nil_of_length_eq_zero (Nat.le_zero.1 h)
    subst this; rfl
  | succ n ih =>
    intro s h
    cases s with
    | nil => rfl
    | cons c s =>
      rw [cleanGo_cons]
      split
      · rename_i hm
        have hc : sp c = true := by
          cases hc : sp c with
          | true => rfl
          | false => simp [hc] at hm
        rw [List.filter_cons_of_neg (by simp [hs]), List.filter_cons_of_neg (by simp [hc]), List.dropWhile_cons_of_pos hc]
        have hd := (List.dropWhile_sublist (l := s) sp).length_le
        rw [ih _ (by simp at h; omega)]
        conv => rhs; rw [← List.takeWhile_append_dropWhile (p := sp) (l := s), List.filter_append]
        have : (s.takeWhile sp).filter (fun c => !sp c) = [] :=
          List.filter_eq_nil_iff.2 (fun x hx => by simp [Para.takeWhile_all sp s x hx])
        rw [this, List.nil_append]
      · simp only [List.filter_cons]
        rw [ih s (by simp at h; omega)]

/-- What is after a character that is not a space is what is after it in the text. -/
theorem cleanGo_head (s : Str) : ∀ c ∈ (cleanGo sp s 0).head?, (∀ x ∈ s.head?, sp x = false) → sp c = false := by
  intro c hc h
  cases s with
  | nil => simp [cleanGo] at hc
  | cons x s =>
    have hx := h x (by simp)
    rw [cleanGo_cons, if_neg (by simp [hx])] at hc
    simp at hc; subst hc; exact hx

theorem cleanGo_newline (n : Nat) : ∀ s : Str, s.length ≤ n → ∀ a c b, cleanGo sp s 0 = a ++ '\n' :: c :: b → sp '\n' = true → sp c = false := by
  induction n with
  | zero =>
    intro s h a c b he
    have : s = [] := List.eq_nil_of_length_eq_zero (Nat.le_zero.1 h)
    subst this; simp [cleanGo] at he
  | succ n ih =>
    intro s h a c b he hnl
    cases s with
    | nil => simp [cleanGo] at he
    | cons x s =>
      rw [cleanGo_cons] at he
      simp only [List.length_cons] at h
      split at he
      · rename_i hm
        have hx : sp x = true := by
          cases hc : sp x with
          | true => rfl
          | false => simp [hc] at hm
        rw [List.dropWhile_cons_of_pos hx] at he
        have hd := (List.dropWhile_sublist (l := s) sp).length_le
        cases a with
        | nil => simp at he
        | cons y a =>
          simp only [List.cons_append, List.cons.injEq] at he
          exact ih _ (by omega) a c b he.2 hnl
      · rename_i hm
        cases a with
        | nil =>
          simp only [List.nil_append, List.cons.injEq] at he
          obtain ⟨rfl, he⟩ := he
          apply cleanGo_head sp s c (by rw [he]; rfl)
          intro y hy
          cases hyy : sp y with
          | false => rfl
          | true =>
            exfalso
            apply hm
            cases s with
            | nil => simp at hy
            | cons z s =>
              simp at hy; subst hy
              rw [List.takeWhile_cons_of_pos hnl, List.takeWhile_cons_of_pos hyy]
              simp
        | cons y a =>
          simp only [List.cons_append, List.cons.injEq] at he
          exact ih s (by omega) a c b he.2 hnl

end Verif.ListTag
