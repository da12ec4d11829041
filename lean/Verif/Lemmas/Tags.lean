import Verif.Spec.Tags
import Verif.Lemmas.Dict

/-! # Lemmas about tag objects -/

namespace Verif.Tags

open Verif

/-! ## Reading -/

theorem readItems_congr (r r' : Val → Option Full) (l : List Val) (fs : List Full)
    (h : readItems r l = some fs) (hr : ∀ v f, v ∈ l → r v = some f → r' v = some f) : readItems r' l = some fs := by
  induction l generalizing fs with
  | nil => exact h
  | cons v l ih =>
    unfold readItems at h ⊢
    cases hv : r v with
    | none => simp [hv] at h
    | some f =>
      cases hl : readItems r l with
      | none => simp [hv, hl] at h
      | some gs =>
        simp only [hv, hl] at h
        rw [hr v f (by simp) hv, ih gs hl (fun w g hw => hr w g (by simp [hw]))]
        exact h

theorem readItems_mem (r : Val → Option Full) (l : List Val) (fs : List Full) (h : readItems r l = some fs)
    (v : Val) (hv : v ∈ l) : ∃ f ∈ fs, r v = some f := by
  induction l generalizing fs with
  | nil => simp at hv
  | cons w l ih =>
    unfold readItems at h
    cases hw : r w with
    | none => simp [hw] at h
    | some f =>
      cases hl : readItems r l with
      | none => simp [hw, hl] at h
      | some gs =>
        simp only [hw, hl, Option.some.injEq] at h
        subst h
        rcases List.mem_cons.1 hv with rfl | hv
        · exact ⟨f, by simp, hw⟩
        · obtain ⟨g, h1, h2⟩ := ih gs hl hv
          exact ⟨g, by simp [h1], h2⟩

/-- What a readable list is. -/
theorem read_list (n : Nat) (h : Heap) (a : Addr) (f : Full) (e : read (n + 1) h (.list a) = some f) :
    ∃ l fs, h[a]? = some (.list l) ∧ readItems (read n h) l = some fs ∧ f = .list fs := by
  unfold read at e
  simp only at e
  cases ha : h[a]? with
  | none => simp [ha] at e
  | some c =>
    cases c with
    | list l =>
      simp only [ha] at e
      cases hr : readItems (read n h) l with
      | none => simp [hr] at e
      | some fs =>
        simp only [hr, Option.map_some, Option.some.injEq] at e
        exact ⟨l, fs, rfl, hr, e.symm⟩
    | tag t => simp [ha] at e
    | attrs d => simp [ha] at e
    | weak c => simp [ha] at e

/-- What a readable tag is. -/
theorem read_tag (n : Nat) (h : Heap) (a : Addr) (f : Full) (e : read (n + 1) h (.tag a) = some f) :
    ∃ t d c g, h[a]? = some (.tag t) ∧ h[t.attrs]? = some (.attrs d) ∧ h[t.weak]? = some (.weak c) ∧
      read n h t.content = some g ∧ f = .tag t.cls t.name d c g := by
  unfold read at e
  simp only at e
  cases ha : h[a]? with
  | none => simp [ha] at e
  | some x =>
    cases x with
    | tag t =>
      simp only [ha] at e
      cases h1 : h[t.attrs]? with
      | none => simp [h1] at e
      | some y =>
        cases h2 : h[t.weak]? with
        | none => simp [h1, h2] at e
        | some z =>
          cases h3 : read n h t.content with
          | none => simp [h3] at e
          | some g =>
            cases y <;> cases z <;> simp [h1, h2, h3] at e
            rename_i d c
            exact ⟨t, d, c, g, rfl, h1, h2, h3, e.symm⟩
    | list l => simp [ha] at e
    | attrs d => simp [ha] at e
    | weak c => simp [ha] at e

theorem read_list_eq (n : Nat) (h : Heap) (a : Addr) (l : List Val) (fs : List Full) (h1 : h[a]? = some (.list l))
    (h2 : readItems (read n h) l = some fs) : read (n + 1) h (.list a) = some (.list fs) := by
  simp [read, h1, h2]

theorem read_tag_eq (n : Nat) (h : Heap) (a : Addr) (t : TagObj) (d : Dict Str Str) (c : Option Nat) (g : Full)
    (h1 : h[a]? = some (.tag t)) (h2 : h[t.attrs]? = some (.attrs d)) (h3 : h[t.weak]? = some (.weak c))
    (h4 : read n h t.content = some g) : read (n + 1) h (.tag a) = some (.tag t.cls t.name d c g) := by
  simp [read, h1, h2, h3, h4]

theorem read_other (n : Nat) (h : Heap) : read n h .other = none := by
  cases n <;> simp [read]

theorem lt_of_get? {α : Type} {l : List α} {i : Nat} {x : α} (h : l[i]? = some x) : i < l.length := by
  rcases Nat.lt_or_ge i l.length with hl | hl
  · exact hl
  · rw [List.getElem?_eq_none hl] at h; simp at h

theorem read_old (n : Nat) (h h' : Heap) (hs : SameOld h h') (v : Val) (f : Full) (e : read n h v = some f) :
    read n h' v = some f := by
  induction n generalizing v f with
  | zero => simp [read] at e
  | succ n ih =>
    cases v with
    | str s => simpa [read] using e
    | other => simp [read] at e
    | list a =>
      obtain ⟨l, fs, h1, h2, rfl⟩ := read_list n h a f e
      refine read_list_eq n h' a l fs (by rw [hs a (lt_of_get? h1)]; exact h1) ?_
      exact readItems_congr _ _ l fs h2 (fun w g _ hw => ih w g hw)
    | tag a =>
      obtain ⟨t, d, c, g, h1, h2, h3, h4, rfl⟩ := read_tag n h a f e
      exact read_tag_eq n h' a t d c g (by rw [hs a (lt_of_get? h1)]; exact h1)
        (by rw [hs _ (lt_of_get? h2)]; exact h2) (by rw [hs _ (lt_of_get? h3)]; exact h3) (ih _ _ h4)

theorem read_mono (n : Nat) (h : Heap) (v : Val) (f : Full) (e : read n h v = some f) : read (n + 1) h v = some f := by
  induction n generalizing v f with
  | zero => simp [read] at e
  | succ n ih =>
    cases v with
    | str s => simpa [read] using e
    | other => simp [read] at e
    | list a =>
      obtain ⟨l, fs, h1, h2, rfl⟩ := read_list n h a f e
      exact read_list_eq _ h a l fs h1 (readItems_congr _ _ l fs h2 (fun w g _ hw => ih w g hw))
    | tag a =>
      obtain ⟨t, d, c, g, h1, h2, h3, h4, rfl⟩ := read_tag n h a f e
      exact read_tag_eq _ h a t d c g h1 h2 h3 (ih _ _ h4)

theorem sameOld_prefix (h h' : Heap) (hp : h <+: h') : SameOld h h' := by
  obtain ⟨t, rfl⟩ := hp
  intro i hi
  rw [List.getElem?_append_left hi]

/-! ## Copying -/

/-- All objects of a value are at addresses from `k` on. -/
def Owned (k : Nat) (h : Heap) : Nat → Val → Prop
  | 0, _ => False
  | n + 1, v =>
    match v with
    | .str _ => True
    | .other => True
    | .list a => k ≤ a ∧ ∃ l, h[a]? = some (.list l) ∧ ∀ w ∈ l, Owned k h n w
    | .tag a => k ≤ a ∧ ∃ t, h[a]? = some (.tag t) ∧ k ≤ t.attrs ∧ k ≤ t.weak ∧ Owned k h n t.content

theorem owned_le (k k' : Nat) (hk : k' ≤ k) (h : Heap) (n : Nat) (v : Val) (e : Owned k h n v) : Owned k' h n v := by
  induction n generalizing v with
  | zero => exact e
  | succ n ih =>
    cases v with
    | str s => trivial
    | other => trivial
    | list a =>
      obtain ⟨h1, l, h2, h3⟩ := e
      exact ⟨by omega, l, h2, fun w hw => ih w (h3 w hw)⟩
    | tag a =>
      obtain ⟨h1, t, h2, h3, h4, h5⟩ := e
      exact ⟨by omega, t, h2, by omega, by omega, ih _ h5⟩

theorem sameNew_left (h h1 h2 h' : Heap) (hp : h1 <+: h2) (hs : SameNew h h2 h') : SameNew h h1 h' := by
  intro i hi hl
  rw [hs i hi (by have := hp.length_le; omega)]
  obtain ⟨t, rfl⟩ := hp
  rw [List.getElem?_append_left hl]

theorem sameNew_right (h h1 h2 h' : Heap) (hp : h.length ≤ h1.length) (hs : SameNew h h2 h') : SameNew h1 h2 h' :=
  fun i hi hl => hs i (by omega) hl

theorem copyItems_spec (rec : Heap → Val → Except TagError (Heap × Val)) (n : Nat)
    (hrec : ∀ h v f, read n h v = some f → ∃ h' v', rec h v = .ok (h', v') ∧ h <+: h' ∧
      ∀ h'', SameNew h h' h'' → read n h'' v' = some f ∧ Owned h.length h'' n v')
    (l : List Val) (h : Heap) (fs : List Full) (e : readItems (read n h) l = some fs) :
    ∃ h' ws, copyItems rec h l = .ok (h', ws) ∧ h <+: h' ∧
      ∀ h'', SameNew h h' h'' → readItems (read n h'') ws = some fs ∧ ∀ w ∈ ws, Owned h.length h'' n w := by
  induction l generalizing h fs with
  | nil =>
    simp only [readItems, Option.some.injEq] at e
    subst e
    exact ⟨h, [], rfl, List.prefix_rfl, fun _ _ => ⟨rfl, by simp⟩⟩
  | cons v l ih =>
    unfold readItems at e
    cases hv : read n h v with
    | none => simp [hv] at e
    | some f =>
      cases hl : readItems (read n h) l with
      | none => simp [hv, hl] at e
      | some gs =>
        simp only [hv, hl, Option.some.injEq] at e
        subst e
        obtain ⟨h1, w, e1, p1, r1⟩ := hrec h v f hv
        obtain ⟨h2, ws, e2, p2, r2⟩ := ih h1 gs
          (readItems_congr _ _ l gs hl (fun x g _ hx => read_old n h h1 (sameOld_prefix h h1 p1) x g hx))
        refine ⟨h2, w :: ws, ?_, p1.trans p2, ?_⟩
        · simp [copyItems, e1, e2]
        · intro h'' hs
          obtain ⟨a1, a2⟩ := r1 h'' (sameNew_left h h1 h2 h'' p2 hs)
          obtain ⟨b1, b2⟩ := r2 h'' (sameNew_right h h1 h2 h'' p1.length_le hs)
          refine ⟨by simp [readItems, a1, b1], ?_⟩
          intro x hx
          rcases List.mem_cons.1 hx with rfl | hx
          · exact a2
          · exact owned_le _ _ p1.length_le _ _ _ (b2 x hx)

theorem copyTag_spec (n : Nat) : ∀ h v f, read n h v = some f →
    ∃ h' v', copyTag n h v = .ok (h', v') ∧ h <+: h' ∧
      ∀ h'', SameNew h h' h'' → read n h'' v' = some f ∧ Owned h.length h'' n v' := by
  induction n with
  | zero => intro h v f e; simp [read] at e
  | succ n ih =>
    intro h v f e
    cases v with
    | str s =>
      refine ⟨h, .str s, rfl, List.prefix_rfl, fun h'' _ => ⟨by simpa [read] using e, trivial⟩⟩
    | other => simp [read] at e
    | list a =>
      obtain ⟨l, fs, h1, h2, rfl⟩ := read_list n h a f e
      obtain ⟨h', ws, e1, p1, r1⟩ := copyItems_spec (copyTag n) n ih l h fs h2
      refine ⟨h' ++ [.list ws], .list h'.length, ?_, p1.trans (List.prefix_append _ _), ?_⟩
      · simp [copyTag, h1, e1]
      · intro h'' hs
        obtain ⟨a1, a2⟩ := r1 h'' (sameNew_left h h' _ h'' (List.prefix_append _ _) hs)
        have hc : h''[h'.length]? = some (.list ws) := by
          rw [hs h'.length p1.length_le (by simp)]
          simp
        exact ⟨read_list_eq n h'' _ ws fs hc a1, p1.length_le, ws, hc, a2⟩
    | tag a =>
      obtain ⟨t, d, c, g, h1, h2, h3, h4, rfl⟩ := read_tag n h a f e
      have hp : h <+: h ++ [Cell.attrs d, Cell.weak c] := List.prefix_append _ _
      obtain ⟨h', w, e1, p1, r1⟩ := ih (h ++ [Cell.attrs d, Cell.weak c]) t.content g
        (read_old n h _ (sameOld_prefix h _ hp) _ _ h4)
      have hlen : h.length + 2 ≤ h'.length := by
        have := p1.length_le
        simpa using this
      refine ⟨h' ++ [.tag { t with attrs := h.length, weak := h.length + 1, content := w }], .tag h'.length, ?_,
        (hp.trans p1).trans (List.prefix_append _ _), ?_⟩
      · simp [copyTag, h1, h2, h3, e1]
      · intro h'' hs
        have hs1 := sameNew_left h h' _ h'' (List.prefix_append _ _) hs
        obtain ⟨a1, a2⟩ := r1 h'' (sameNew_right h _ h' h'' hp.length_le hs1)
        have hc : h''[h'.length]? = some (.tag { t with attrs := h.length, weak := h.length + 1, content := w }) := by
          rw [hs h'.length (by omega) (by simp)]
          simp
        have hat : ∀ i, i < 2 → h''[h.length + i]? = ([Cell.attrs d, Cell.weak c] : List Cell)[i]? := by
          intro i hi
          rw [hs1 (h.length + i) (by omega) (by omega)]
          rw [sameOld_prefix _ _ p1 (h.length + i) (by simp; omega)]
          rw [List.getElem?_append_right (by omega)]
          simp
        have ha := hat 0 (by omega)
        have hw := hat 1 (by omega)
        simp only [Nat.add_zero, List.getElem?_cons_zero] at ha
        simp only [List.getElem?_cons_succ, List.getElem?_cons_zero] at hw
        refine ⟨read_tag_eq n h'' _ { t with attrs := h.length, weak := h.length + 1, content := w } d c g hc ha hw a1, by omega, _, hc, Nat.le_refl _, by simp, ?_⟩
        exact owned_le _ _ hp.length_le _ _ _ a2

/-- The copy of a tag is a tag. -/
theorem copyTag_tag (n : Nat) (h : Heap) (a : Addr) (h' : Heap) (v' : Val)
    (e : copyTag n h (.tag a) = .ok (h', v')) : ∃ b, v' = .tag b := by
  cases n with
  | zero => simp [copyTag] at e
  | succ n =>
    unfold copyTag at e
    simp only at e
    split at e
    · split at e
      · split at e
        · cases e
        · simp only [Except.ok.injEq, Prod.mk.injEq] at e
          exact ⟨_, e.2.symm⟩
      · cases e
    · cases e

/-! ## Flattening -/

theorem flattenLoop_mem (rec : Val → List Val) (h : Heap) (l : List Val) (v : Val) (hv : v ∈ l) :
    v ∈ flattenLoop rec h l ∧ ∀ w, descends h v = some w → ∀ x ∈ rec w, x ∈ flattenLoop rec h l := by
  induction l with
  | nil => simp at hv
  | cons u l ih =>
    unfold flattenLoop
    rcases List.mem_cons.1 hv with rfl | hv
    · refine ⟨by simp, ?_⟩
      intro w hw x hx
      simp only [hw]
      simp [hx]
    · obtain ⟨h1, h2⟩ := ih hv
      refine ⟨by simp [h1], ?_⟩
      intro w hw x hx
      have := h2 w hw x hx
      simp [this]

theorem inside_str (h : Heap) (s : Str) (b : Addr) : ¬ Inside h (.str s) b := by
  intro e; cases e

theorem inside_other (h : Heap) (b : Addr) : ¬ Inside h .other b := by
  intro e; cases e

/-- The tags in a tag of the loop are found. -/
theorem loop_inside (n : Nat) (h : Heap) (items : List Val)
    (ih : ∀ v f, (∃ a, v = .tag a ∨ v = .list a) → read n h v = some f → flat f = true →
      ∀ b, Inside h v b → .tag b ∈ flattenAll n h v)
    (c : Addr) (hc : .tag c ∈ items) (f : Full) (hf : read (n + 1) h (.tag c) = some f) (hfl : flat f = true)
    (b : Addr) (hb : Inside h (.tag c) b) : .tag b ∈ flattenLoop (flattenAll n h) h items := by
  obtain ⟨h1, h2⟩ := flattenLoop_mem (flattenAll n h) h items (.tag c) hc
  cases hb with
  | self => exact h1
  | content _ _ t ht hin =>
    obtain ⟨t', d, x, g, e1, _, _, e4, rfl⟩ := read_tag n h c f hf
    rw [ht] at e1
    simp only [Option.some.injEq, Cell.tag.injEq] at e1
    subst e1
    have hg : flat g = true := by simpa [flat] using hfl
    cases htc : t.content with
    | str s => rw [htc] at hin; exact absurd hin (inside_str h s b)
    | other => rw [htc] at hin; exact absurd hin (inside_other h b)
    | list a =>
      rw [htc] at hin e4
      exact h2 (.list a) (by simp [descends, ht, htc]) _ (ih (.list a) g ⟨a, Or.inr rfl⟩ e4 hg b hin)
    | tag a =>
      rw [htc] at hin e4
      exact h2 (.tag a) (by simp [descends, ht, htc]) _ (ih (.tag a) g ⟨a, Or.inl rfl⟩ e4 hg b hin)

theorem flatItems_mem (l : List Full) (h : flatItems l = true) (f : Full) (hf : f ∈ l) :
    flat f = true ∧ ∀ m, f ≠ .list m := by
  induction l with
  | nil => simp at hf
  | cons g l ih =>
    cases g with
    | list m => simp [flatItems] at h
    | str s =>
      simp only [flatItems, Bool.and_eq_true] at h
      rcases List.mem_cons.1 hf with rfl | hf
      · exact ⟨h.1, by simp⟩
      · exact ih h.2 hf
    | tag a b c d e =>
      simp only [flatItems, Bool.and_eq_true] at h
      rcases List.mem_cons.1 hf with rfl | hf
      · exact ⟨h.1, by simp⟩
      · exact ih h.2 hf

/-- The items of a flat list: strings and tags. -/
theorem items_inside (n : Nat) (h : Heap) (l : List Val) (fs : List Full) (hr : readItems (read (n + 1) h) l = some fs)
    (hfl : flatItems fs = true)
    (ih : ∀ v f, (∃ a, v = .tag a ∨ v = .list a) → read n h v = some f → flat f = true →
      ∀ b, Inside h v b → .tag b ∈ flattenAll n h v)
    (v : Val) (hv : v ∈ l) (b : Addr) (hb : Inside h v b) : .tag b ∈ flattenLoop (flattenAll n h) h l := by
  obtain ⟨f, hf, e⟩ := readItems_mem _ l fs hr v hv
  obtain ⟨h1, h2⟩ := flatItems_mem fs hfl f hf
  cases v with
  | str s => exact absurd hb (inside_str h s b)
  | other => exact absurd hb (inside_other h b)
  | list a =>
    obtain ⟨_, gs, _, _, rfl⟩ := read_list n h a f e
    exact absurd rfl (h2 gs)
  | tag c => exact loop_inside n h l ih c hv f e h1 b hb

theorem flattenAll_inside (n : Nat) (h : Heap) : ∀ v f, (∃ a, v = .tag a ∨ v = .list a) → read n h v = some f →
    flat f = true → ∀ b, Inside h v b → .tag b ∈ flattenAll n h v := by
  induction n with
  | zero => intro v f _ e; simp [read] at e
  | succ n ih =>
    intro v f hv e hfl b hb
    obtain ⟨a, rfl | rfl⟩ := hv
    · unfold flattenAll
      cases hb with
      | self => simp
      | content _ _ t ht hin =>
        obtain ⟨t', d, x, g, e1, _, _, e4, rfl⟩ := read_tag n h a f e
        rw [ht] at e1
        simp only [Option.some.injEq, Cell.tag.injEq] at e1
        subst e1
        have hg : flat g = true := by simpa [flat] using hfl
        apply List.mem_cons_of_mem
        cases htc : t.content with
        | str s => rw [htc] at hin; exact absurd hin (inside_str h s b)
        | other => rw [htc] at hin; exact absurd hin (inside_other h b)
        | list c =>
          rw [htc] at hin e4
          cases n with
          | zero => simp [read] at e4
          | succ m =>
            obtain ⟨l, fs, h1, h2, rfl⟩ := read_list m h c g e4
            have hitems : flattenItems h (.tag a) = l := by simp [flattenItems, ht, htc, h1]
            rw [hitems]
            cases hin with
            | item _ _ l' w hl' hw hin =>
              rw [h1] at hl'
              simp only [Option.some.injEq, Cell.list.injEq] at hl'
              subst hl'
              refine items_inside (m + 1) h l fs ?_ (by simpa [flat] using hg) ih w hw b hin
              exact readItems_congr _ _ l fs h2 (fun u x _ hu => read_mono _ h u x (read_mono _ h u x hu))
        | tag c =>
          rw [htc] at hin e4
          have hitems : flattenItems h (.tag a) = [.tag c] := by simp [flattenItems, ht, htc]
          rw [hitems]
          exact loop_inside n h [.tag c] ih c (by simp) g (read_mono n h _ _ e4) hg b hin
    · unfold flattenAll
      apply List.mem_cons_of_mem
      obtain ⟨l, fs, h1, h2, rfl⟩ := read_list n h a f e
      have hitems : flattenItems h (.list a) = l := by simp [flattenItems, h1]
      rw [hitems]
      cases hb with
      | item _ _ l' w hl' hw hin =>
        rw [h1] at hl'
        simp only [Option.some.injEq, Cell.list.injEq] at hl'
        subst hl'
        refine items_inside n h l fs ?_ (by simpa [flat] using hfl) ih w hw b hin
        exact readItems_congr _ _ l fs h2 (fun u x _ hu => read_mono _ h u x hu)

/-- What is found is in the tree. -/
theorem flattenAll_sound (n : Nat) (h : Heap) : ∀ v b, .tag b ∈ flattenAll n h v → Inside h v b := by
  induction n with
  | zero => intro v b e; simp [flattenAll] at e
  | succ n ih =>
    intro v b e
    have hloop : ∀ items, .tag b ∈ flattenLoop (flattenAll n h) h items → ∃ w ∈ items, Inside h w b := by
      intro items
      induction items with
      | nil => intro e; simp [flattenLoop] at e
      | cons u l ihl =>
        intro e
        unfold flattenLoop at e
        simp only [List.cons_append, List.mem_cons, List.mem_append] at e
        rcases e with e | e | e
        · exact ⟨u, by simp, by rw [← e]; exact .self b⟩
        · cases hd : descends h u with
          | none => rw [hd] at e; simp at e
          | some w =>
            rw [hd] at e
            have hin := ih w b e
            refine ⟨u, by simp, ?_⟩
            unfold descends at hd
            cases u with
            | str s => simp at hd
            | other => simp at hd
            | list a => simp at hd
            | tag a =>
              simp only at hd
              cases ha : h[a]? with
              | none => simp [ha] at hd
              | some x =>
                cases x with
                | list _ => simp [ha] at hd
                | attrs _ => simp [ha] at hd
                | weak _ => simp [ha] at hd
                | tag t =>
                  simp only [ha] at hd
                  refine .content a b t ha ?_
                  cases htc : t.content with
                  | str s => simp [htc] at hd
                  | other => simp [htc] at hd
                  | list c => simp only [htc, Option.some.injEq] at hd; rw [hd]; exact hin
                  | tag c => simp only [htc, Option.some.injEq] at hd; rw [hd]; exact hin
        · obtain ⟨w, hw, hin⟩ := ihl e
          exact ⟨w, by simp [hw], hin⟩
    unfold flattenAll at e
    rcases List.mem_cons.1 e with e | e
    · rw [← e]; exact .self b
    · obtain ⟨w, hw, hin⟩ := hloop _ e
      have hstr : ∀ s : Str, w ∈ (s.map fun c => Val.str [c]) → False := by
        intro s hm
        obtain ⟨c, _, rfl⟩ := List.mem_map.1 hm
        exact inside_str _ _ _ hin
      have hlist : ∀ a, w ∈ (match h[a]? with | some (.list l) => l | _ => []) → Inside h (.list a) b := by
        intro a hm
        cases ha : h[a]? with
        | none => simp [ha] at hm
        | some x =>
          cases x with
          | list l => simp only [ha] at hm; exact .item a b l w ha hm hin
          | tag _ => simp [ha] at hm
          | attrs _ => simp [ha] at hm
          | weak _ => simp [ha] at hm
      unfold flattenItems at hw
      cases v with
      | str s => exact (hstr s hw).elim
      | other =>
        have hw' : w = .other := by simpa using hw
        rw [hw'] at hin
        exact absurd hin (inside_other h b)
      | list a => exact hlist a hw
      | tag a =>
        simp only at hw
        cases ha : h[a]? with
        | none =>
          simp only [ha] at hw
          have hw' : w = .other := by simpa using hw
          rw [hw'] at hin
          exact absurd hin (inside_other h b)
        | some x =>
          cases x with
          | list _ =>
            simp only [ha] at hw
            have hw' : w = .other := by simpa using hw
            rw [hw'] at hin
            exact absurd hin (inside_other h b)
          | attrs _ =>
            simp only [ha] at hw
            have hw' : w = .other := by simpa using hw
            rw [hw'] at hin
            exact absurd hin (inside_other h b)
          | weak _ =>
            simp only [ha] at hw
            have hw' : w = .other := by simpa using hw
            rw [hw'] at hin
            exact absurd hin (inside_other h b)
          | tag t =>
            simp only [ha] at hw
            refine .content a b t ha ?_
            cases htc : t.content with
            | str s => simp only [htc] at hw; exact (hstr s hw).elim
            | other =>
              simp only [htc] at hw
              have hw' : w = .other := by simpa using hw
              rw [hw'] at hin
              exact absurd hin (inside_other h b)
            | list c => simp only [htc] at hw; exact hlist c hw
            | tag c =>
              simp only [htc] at hw
              have hw' : w = .tag c := by simpa using hw
              rw [hw'] at hin
              exact hin

theorem mem_flattenTags (n : Nat) (h : Heap) (v : Val) (b : Addr) :
    b ∈ flattenTags n h v ↔ .tag b ∈ flattenAll n h v := by
  unfold flattenTags
  rw [List.mem_filterMap]
  constructor
  · rintro ⟨w, hw, e⟩
    cases w with
    | tag a => simp only [Option.some.injEq] at e; subst e; exact hw
    | str s => simp at e
    | list a => simp at e
    | other => simp at e
  · intro e; exact ⟨.tag b, e, rfl⟩

/-! ## Replacing the context -/

/-- `h'` differs from `h` only in the contexts of tags of `as`, which are `c` there. -/
def Reset (c : Nat) (as : List Addr) (h h' : Heap) : Prop :=
  h'.length = h.length ∧
  (∀ i, h'[i]? = h[i]? ∨ ((∃ a t, a ∈ as ∧ h[a]? = some (.tag t) ∧ t.weak = i) ∧
    (∃ c0, h[i]? = some (.weak c0)) ∧ h'[i]? = some (.weak (some c)))) ∧
  ∀ a ∈ as, ∀ t c0, h[a]? = some (.tag t) → h[t.weak]? = some (.weak c0) → h'[t.weak]? = some (.weak (some c))

theorem reset_tag (c : Nat) (as : List Addr) (h h' : Heap) (hr : Reset c as h h') (a : Addr) (t : TagObj) :
    h'[a]? = some (.tag t) ↔ h[a]? = some (.tag t) := by
  rcases hr.2.1 a with e | ⟨_, ⟨c0, e1⟩, e2⟩
  · rw [e]
  · rw [e1, e2]; simp

theorem setContext_reset (h : Heap) (c : Nat) (a : Addr) : Reset c [a] h (setContext h (some c) a) := by
  unfold setContext
  simp only
  cases ha : h[a]? with
  | none => exact ⟨rfl, fun i => Or.inl rfl, by simp [ha]⟩
  | some x =>
    cases x with
    | list _ => exact ⟨rfl, fun i => Or.inl rfl, by simp [ha]⟩
    | attrs _ => exact ⟨rfl, fun i => Or.inl rfl, by simp [ha]⟩
    | weak _ => exact ⟨rfl, fun i => Or.inl rfl, by simp [ha]⟩
    | tag t =>
      simp only
      cases hw : h[t.weak]? with
      | none => exact ⟨rfl, fun i => Or.inl rfl, fun a' ha' t' c' e1 e2 => by
          simp only [List.mem_singleton] at ha'
          subst ha'
          rw [ha] at e1
          simp only [Option.some.injEq, Cell.tag.injEq] at e1
          subst e1
          rw [hw] at e2
          simp at e2⟩
      | some y =>
        cases y with
        | list _ => exact ⟨rfl, fun i => Or.inl rfl, fun a' ha' t' c' e1 e2 => by
          simp only [List.mem_singleton] at ha'
          subst ha'
          rw [ha] at e1
          simp only [Option.some.injEq, Cell.tag.injEq] at e1
          subst e1
          rw [hw] at e2
          simp at e2⟩
        | attrs _ => exact ⟨rfl, fun i => Or.inl rfl, fun a' ha' t' c' e1 e2 => by
          simp only [List.mem_singleton] at ha'
          subst ha'
          rw [ha] at e1
          simp only [Option.some.injEq, Cell.tag.injEq] at e1
          subst e1
          rw [hw] at e2
          simp at e2⟩
        | tag _ => exact ⟨rfl, fun i => Or.inl rfl, fun a' ha' t' c' e1 e2 => by
          simp only [List.mem_singleton] at ha'
          subst ha'
          rw [ha] at e1
          simp only [Option.some.injEq, Cell.tag.injEq] at e1
          subst e1
          rw [hw] at e2
          simp at e2⟩
        | weak c0 =>
          simp only
          have hl := lt_of_get? hw
          refine ⟨by simp, ?_, ?_⟩
          · intro i
            by_cases hi : t.weak = i
            · subst hi
              right
              exact ⟨⟨a, t, by simp, ha, rfl⟩, ⟨c0, hw⟩, by simp [hl]⟩
            · left
              rw [List.getElem?_set_ne hi]
          · intro a' ha' t' c' e1 e2
            simp only [List.mem_singleton] at ha'
            subst ha'
            rw [ha] at e1
            simp only [Option.some.injEq, Cell.tag.injEq] at e1
            subst e1
            simp [hl]

theorem reset_trans (c : Nat) (as bs : List Addr) (h h1 h2 : Heap) (r1 : Reset c as h h1) (r2 : Reset c bs h1 h2) :
    Reset c (as ++ bs) h h2 := by
  refine ⟨r2.1.trans r1.1, ?_, ?_⟩
  · intro i
    rcases r2.2.1 i with e | ⟨⟨a, t, ha, ht, hw⟩, ⟨c0, e1⟩, e2⟩
    · rcases r1.2.1 i with e' | ⟨⟨a, t, ha, ht, hw⟩, hc, e2⟩
      · left; rw [e, e']
      · right; exact ⟨⟨a, t, by simp [ha], ht, hw⟩, hc, by rw [e, e2]⟩
    · right
      refine ⟨⟨a, t, by simp [ha], (reset_tag c as h h1 r1 a t).1 ht, hw⟩, ?_, e2⟩
      rcases r1.2.1 i with e' | ⟨_, hc, _⟩
      · exact ⟨c0, by rw [← e', e1]⟩
      · exact hc
  · intro a ha t c0 e1 e2
    have e1' := (reset_tag c as h h1 r1 a t).2 e1
    have hweak : ∃ c1, h1[t.weak]? = some (.weak c1) := by
      rcases r1.2.1 t.weak with e' | ⟨_, _, e'⟩
      · exact ⟨c0, by rw [e', e2]⟩
      · exact ⟨_, e'⟩
    obtain ⟨c1, hc1⟩ := hweak
    rcases List.mem_append.1 ha with ha | ha
    · have hset := r1.2.2 a ha t c0 e1 e2
      rcases r2.2.1 t.weak with e' | ⟨_, _, e'⟩
      · rw [e', hset]
      · exact e'
    · exact r2.2.2 a ha t c1 e1' hc1

theorem fold_reset (c : Nat) (as : List Addr) (h : Heap) :
    Reset c as h (as.foldl (fun h a => setContext h (some c) a) h) := by
  induction as generalizing h with
  | nil => exact ⟨rfl, fun i => Or.inl rfl, by simp⟩
  | cons a as ih => exact reset_trans c [a] as h _ _ (setContext_reset h c a) (ih _)

/-- Reading after the contexts of all tags of a tree have been replaced. -/
theorem read_reset (c : Nat) (as : List Addr) (h h' : Heap) (hr : Reset c as h h') (n : Nat) :
    ∀ v f, read n h v = some f → (∀ b, Inside h v b → b ∈ as) → read n h' v = some (withContext c f) := by
  induction n with
  | zero => intro v f e; simp [read] at e
  | succ n ih =>
    intro v f e hin
    cases v with
    | str s =>
      simp only [read, Option.some.injEq] at e
      subst e
      simp [read, withContext]
    | other => simp [read] at e
    | list a =>
      obtain ⟨l, fs, h1, h2, rfl⟩ := read_list n h a f e
      have h1' : h'[a]? = some (.list l) := by
        rcases hr.2.1 a with e' | ⟨_, ⟨c0, e1⟩, _⟩
        · rw [e', h1]
        · rw [h1] at e1; simp at e1
      simp only [withContext]
      refine read_list_eq n h' a l _ h1' ?_
      have hl : ∀ w ∈ l, ∀ b, Inside h w b → b ∈ as := fun w hw b hb => hin b (.item a b l w h1 hw hb)
      clear h1 h1' e hin
      induction l generalizing fs with
      | nil =>
        simp only [readItems, Option.some.injEq] at h2
        subst h2
        rfl
      | cons w l ihl =>
        unfold readItems at h2
        cases hw : read n h w with
        | none => simp [hw] at h2
        | some g =>
          cases hls : readItems (read n h) l with
          | none => simp [hw, hls] at h2
          | some gs =>
            simp only [hw, hls, Option.some.injEq] at h2
            subst h2
            have := ihl gs hls (fun w' hw' => hl w' (by simp [hw']))
            simp [readItems, ih w g hw (hl w (by simp)), this, withContexts]
    | tag a =>
      obtain ⟨t, d, c0, g, h1, h2, h3, h4, rfl⟩ := read_tag n h a f e
      have h2' : h'[t.attrs]? = some (.attrs d) := by
        rcases hr.2.1 t.attrs with e' | ⟨_, ⟨c0, e1⟩, _⟩
        · rw [e', h2]
        · rw [h2] at e1; simp at e1
      simp only [withContext]
      refine read_tag_eq n h' a t d (some c) _ ((reset_tag c as h h' hr a t).2 h1) h2'
        (hr.2.2 a (hin a (.self a)) t c0 h1 h3) (ih _ _ h4 ?_)
      intro b hb
      exact hin b (.content a b t h1 hb)

/-- The tags of an owned value have their own contexts. -/
theorem owned_inside (k : Nat) (h : Heap) (n : Nat) : ∀ v, Owned k h n v → ∀ b, Inside h v b →
    k ≤ b ∧ ∃ t, h[b]? = some (.tag t) ∧ k ≤ t.weak ∧ k ≤ t.attrs := by
  induction n with
  | zero => intro v e; exact e.elim
  | succ n ih =>
    intro v e b hb
    cases hb with
    | self =>
      obtain ⟨h1, t, h2, h3, h4, h5⟩ := e
      exact ⟨h1, t, h2, h4, h3⟩
    | content a _ t ht hin =>
      obtain ⟨h1, t', h2, h3, h4, h5⟩ := e
      rw [ht] at h2
      simp only [Option.some.injEq, Cell.tag.injEq] at h2
      subst h2
      exact ih _ h5 b hin
    | item a _ l w hl hw hin =>
      obtain ⟨h1, l', h2, h3⟩ := e
      rw [hl] at h2
      simp only [Option.some.injEq, Cell.list.injEq] at h2
      subst h2
      exact ih w (h3 w hw) b hin

/-! ## Formatting -/

theorem joinParts_strs (l : List Str) : joinParts (l.map .str) = .ok l.flatten := by
  induction l with
  | nil => rfl
  | cons s l ih => simp [joinParts, ih, Except.map]

theorem joinItems_strs (l : List Str) : joinItems (l.map .str) = .ok l.flatten := by
  cases l with
  | nil => rfl
  | cons s l =>
    cases l with
    | nil => simp [joinItems]
    | cons s' l =>
      have := joinParts_strs (s :: s' :: l)
      simpa [joinItems] using this

mutual
/-- A formatted tag or string is its text. -/
theorem formatItem_text (wrap : Str → Str → Str) : ∀ (t : Tree), flatTree t = true → (∀ l, t ≠ .list l) →
    formatItem wrap t = .ok (.str (text wrap t))
  | .str s, _, _ => by simp [formatItem, text]
  | .list l, _, h => absurd rfl (h l)
  | .tag c (.str s), _, _ => by simp [formatItem, text]
  | .tag c (.list l), hf, _ => by
    have := formatItems_text wrap l (by simpa [flatTree] using hf)
    obtain ⟨ss, h1, h2⟩ := this
    simp [formatItem, h1, joinItems_strs, Except.map, text, h2]
  | .tag c (.tag c' t), hf, _ => by
    have := formatItem_text wrap (.tag c' t) (by simpa [flatTree] using hf) (by simp)
    simp [formatItem, this, joinItems, Except.map, text]

theorem formatItems_text (wrap : Str → Str → Str) : ∀ (l : List Tree), flatTrees l = true →
    ∃ ss : List Str, formatItems wrap l = .ok (ss.map .str) ∧ ss.flatten = texts wrap l
  | [], _ => ⟨[], rfl, rfl⟩
  | .list _ :: _, h => by simp [flatTrees] at h
  | .str s :: l, h => by
    have h' : flatTree (.str s) = true ∧ flatTrees l = true := by simpa [flatTrees] using h
    obtain ⟨ss, h1, h2⟩ := formatItems_text wrap l h'.2
    exact ⟨s :: ss, by simp [formatItems, formatItem, h1], by simp [texts, text, h2]⟩
  | .tag c t :: l, h => by
    have h' : flatTree (.tag c t) = true ∧ flatTrees l = true := by simpa [flatTrees] using h
    obtain ⟨ss, h1, h2⟩ := formatItems_text wrap l h'.2
    have := formatItem_text wrap (.tag c t) h'.1 (by simp)
    exact ⟨text wrap (.tag c t) :: ss, by simp [formatItems, this, h1], by simp [texts, h2]⟩
end

mutual
theorem text_strings : ∀ (t : Tree), text (fun _ s => s) t = (strings t).flatten
  | .str s => by simp [text, strings]
  | .tag c t => by simp only [text, strings]; exact text_strings t
  | .list l => by simp only [text, strings]; exact texts_strings l

theorem texts_strings : ∀ (l : List Tree), texts (fun _ s => s) l = (allStrings l).flatten
  | [] => rfl
  | t :: l => by
    simp only [texts, allStrings, List.flatten_append]
    rw [text_strings t, texts_strings l]
end

/-! ## Tag classes -/

theorem addNames_get (c : TagClass) (ns : List Str) (d d' : Dict Str TagClass) (h : addNames c ns d = some d') (k : Str) :
    d'.get? k = if k ∈ ns then some c else d.get? k := by
  induction ns generalizing d with
  | nil => simp only [addNames, Option.some.injEq] at h; simp [h]
  | cons n ns ih =>
    unfold addNames at h
    split at h
    · cases h
    · rw [ih _ h]
      by_cases hk : k ∈ ns
      · simp [hk]
      · simp only [hk, if_false, Dict.get?_set]
        by_cases hn : k = n
        · simp [hn]
        · have hn' : ¬ n = k := fun e => hn e.symm
          simp [hn, hn', hk]

theorem addNames_new (c : TagClass) (ns : List Str) (d d' : Dict Str TagClass) (h : addNames c ns d = some d') :
    ∀ n ∈ ns, d.get? n = none := by
  induction ns generalizing d with
  | nil => simp
  | cons n ns ih =>
    unfold addNames at h
    split at h
    · cases h
    · rename_i hh
      intro m hm
      have hn : d.get? n = none := by
        simpa [Dict.has] using hh
      rcases List.mem_cons.1 hm with rfl | hm
      · exact hn
      · have := ih _ h m hm
        rw [Dict.get?_set] at this
        by_cases e : m = n
        · subst e; exact hn
        · have e' : ¬ n = m := fun x => e x.symm
          simpa [e, e'] using this

/-- The classes found under a name: those that have it, and at most one does. -/
theorem tagClasses_get (cs : List TagClass) (d d' : Dict Str TagClass) (h : tagClasses cs d = some d') (k : Str) :
    (∀ c, d'.get? k = some c ↔ (d.get? k = some c ∨ (c ∈ cs ∧ k ∈ namesOf c))) := by
  induction cs generalizing d with
  | nil => simp only [tagClasses, Option.some.injEq] at h; intro c; simp [h]
  | cons c0 cs ih =>
    unfold tagClasses at h
    cases ha : addNames c0 (c0.name :: c0.aliases) d with
    | none => simp [ha] at h
    | some d1 =>
      simp only [ha] at h
      intro c
      rw [ih d1 h c, addNames_get c0 _ d d1 ha k]
      have hnew := addNames_new c0 _ d d1 ha
      by_cases hk : k ∈ c0.name :: c0.aliases
      · rw [if_pos hk]
        constructor
        · rintro (e | ⟨e1, e2⟩)
          · simp only [Option.some.injEq] at e
            subst e
            exact Or.inr ⟨by simp, hk⟩
          · exact Or.inr ⟨by simp [e1], e2⟩
        · rintro (e | ⟨e1, e2⟩)
          · rw [hnew k hk] at e; cases e
          · rcases List.mem_cons.1 e1 with rfl | e1
            · exact Or.inl rfl
            · exact Or.inr ⟨e1, e2⟩
      · rw [if_neg hk]
        constructor
        · rintro (e | ⟨e1, e2⟩)
          · exact Or.inl e
          · exact Or.inr ⟨by simp [e1], e2⟩
        · rintro (e | ⟨e1, e2⟩)
          · exact Or.inl e
          · rcases List.mem_cons.1 e1 with rfl | e1
            · exact absurd e2 hk
            · exact Or.inr ⟨e1, e2⟩

theorem addNames_isSome (c : TagClass) (ns : List Str) (d : Dict Str TagClass) :
    (addNames c ns d).isSome ↔ ns.Nodup ∧ ∀ n ∈ ns, n ∉ d.keys := by
  induction ns generalizing d with
  | nil => simp [addNames]
  | cons n ns ih =>
    unfold addNames
    by_cases hh : d.has n = true
    · rw [if_pos hh]
      have hk := (Dict.has_iff d n).1 hh
      simp [hk]
    · rw [if_neg hh, ih]
      have hk : n ∉ d.keys := fun h => hh ((Dict.has_iff d n).2 h)
      have hkeys : ∀ m, m ∈ (d.set n c).keys ↔ m = n ∨ m ∈ d.keys := by
        intro m
        rw [← Dict.get?_isSome_iff, ← Dict.get?_isSome_iff, Dict.get?_set]
        by_cases e : m = n
        · subst e; simp
        · have e' : ¬ n = m := fun x => e x.symm
          simp [e, e']
      simp only [List.nodup_cons, List.mem_cons, forall_eq_or_imp]
      constructor
      · rintro ⟨h1, h2⟩
        refine ⟨⟨fun h => h2 n h ((hkeys n).2 (Or.inl rfl)), h1⟩, hk, fun m hm h => h2 m hm ((hkeys m).2 (Or.inr h))⟩
      · rintro ⟨⟨h0, h1⟩, h2, h3⟩
        refine ⟨h1, fun m hm h => ?_⟩
        rcases (hkeys m).1 h with rfl | h
        · exact h0 hm
        · exact h3 m hm h

theorem tagClasses_isSome (cs : List TagClass) (d : Dict Str TagClass) :
    (tagClasses cs d).isSome ↔ (cs.flatMap namesOf).Nodup ∧ ∀ n ∈ cs.flatMap namesOf, n ∉ d.keys := by
  induction cs generalizing d with
  | nil => simp [tagClasses]
  | cons c cs ih =>
    unfold tagClasses
    have hadd := addNames_isSome c (c.name :: c.aliases) d
    rw [List.flatMap_cons, List.nodup_append]
    cases ha : addNames c (c.name :: c.aliases) d with
    | none =>
      rw [ha] at hadd
      simp only [Option.isSome_none, Bool.false_eq_true, false_iff] at hadd
      simp only [Option.isSome_none, Bool.false_eq_true, false_iff]
      rintro ⟨⟨h1, _, _⟩, h2⟩
      exact hadd ⟨h1, fun n hn => h2 n (List.mem_append_left _ hn)⟩
    | some d1 =>
      rw [ha] at hadd
      have hadd := hadd.1 rfl
      simp only
      rw [ih d1]
      have hkeys : ∀ m, m ∈ d1.keys ↔ m ∈ namesOf c ∨ m ∈ d.keys := by
        intro m
        rw [← Dict.get?_isSome_iff, ← Dict.get?_isSome_iff, addNames_get c _ d d1 ha m]
        unfold namesOf
        by_cases e : m ∈ c.name :: c.aliases
        · rw [if_pos e]; simp only [Option.isSome_some, true_iff]; exact Or.inl e
        · rw [if_neg e]
          constructor
          · exact Or.inr
          · rintro (h | h)
            · exact absurd h e
            · exact h
      constructor
      · rintro ⟨h1, h2⟩
        refine ⟨⟨hadd.1, h1, ?_⟩, ?_⟩
        · intro a ha' b hb e
          subst e
          exact h2 a hb ((hkeys a).2 (Or.inl ha'))
        · intro n hn
          rcases List.mem_append.1 hn with hn | hn
          · exact hadd.2 n hn
          · exact fun h => h2 n hn ((hkeys n).2 (Or.inr h))
      · rintro ⟨⟨_, h1, h3⟩, h2⟩
        refine ⟨h1, fun n hn h => ?_⟩
        rcases (hkeys n).1 h with h | h
        · exact h3 n h n hn rfl
        · exact h2 n (List.mem_append_right _ hn) h

end Verif.Tags
