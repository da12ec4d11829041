import Verif.Lemmas.DocumentReload
import Verif.Lemmas.DocumentWorks

/-!
# Properties of documents (C16, C17)
-/

namespace Verif.Documents

open Verif Verif.Documents.Spec

variable {P : Type} [DecidableEq P]

/-! ## C16: loading a project -/

/-- Loading a project ends, without an error, exactly if every file that is included can be loaded and there is no endless chain
of includes, other than a chain through the root or of files that include themselves. -/
theorem C16_terminates (w : World P) (alive : Nat → Bool) (root : P) :
    (∃ fuel b h, create w alive fuel root = (.ok b, h)) ↔
      ¬ EndlessChain w root ∧ ∀ p, Reach w root p → (contents w p).isSome := by
  rw [← good_iff]
  constructor
  · rintro ⟨fuel, b, h, he⟩
    have := create_spec w alive fuel root
    cases hu : unfoldRoot w fuel root with
    | none =>
      rw [hu] at this
      obtain ⟨e, h', he'⟩ := this
      rw [he] at he'
      simp at he'
    | some T => exact unfoldRoot_good fuel T hu
  · intro hg
    obtain ⟨n, hn⟩ := good_unfoldRoot hg
    have h1 := hn n (Nat.le_refl _)
    have := create_spec w alive n root
    obtain ⟨T, hT⟩ := Option.isSome_iff_exists.1 h1
    rw [hT] at this
    obtain ⟨b, h', he, _⟩ := this
    exact ⟨n, b, h', he⟩

/-- If loading ends, then a larger bound on the recursion makes no difference. -/
theorem C16_fuel (w : World P) (alive : Nat → Bool) (root : P) (fuel fuel' : Nat) (hf : fuel ≤ fuel') (b : Bool) (h : Heap P)
    (he : create w alive fuel root = (.ok b, h)) : create w alive fuel' root = (.ok b, h) :=
  load_mono_le w alive fuel fuel' hf false _ 0 b h he

theorem create_made {w : World P} {alive : Nat → Bool} {root : P} {fuel : Nat} {b : Bool} {h : Heap P} (he : create w alive fuel root = (.ok b, h)) :
    ∃ T, unfoldRoot w fuel root = some T ∧ Made w { docs := [newDoc w root none], root := 0, loads := [] } h 0 none T := by
  have := create_spec w alive fuel root
  cases hu : unfoldRoot w fuel root with
  | none =>
    rw [hu] at this
    obtain ⟨e, h', he'⟩ := this
    rw [he] at he'
    simp at he'
  | some T =>
    rw [hu] at this
    obtain ⟨b', h', he', hm⟩ := this
    rw [he] at he'
    obtain ⟨_, rfl⟩ := Prod.mk.injEq .. ▸ he'
    exact ⟨T, rfl, hm⟩

theorem list_paths {docs : List (Doc P)} {x : Nat} {d : Dict P Nat} (h : documentsDict docs x = some d) :
    (d.map (·.2)).map (pathOf docs) = d.keys.map some := by
  have := docsDict_paths docs _ x d h
  simp only [Dict.keys, List.map_map]
  apply List.map_congr_left
  intro kv hm
  exact this kv hm

theorem keysL_prefix {A : Type} (l : List (Tree P A)) (acc : List P) : ∃ r, keysL l acc = acc ++ r := by
  induction l generalizing acc with
  | nil => exact ⟨[], by simp [keysL]⟩
  | cons t l ih =>
    simp only [keysL]
    obtain ⟨r, hr⟩ := ih (merge acc t.keys)
    have : ∀ (b a : List P), ∃ r, merge a b = a ++ r := by
      intro b
      induction b with
      | nil => exact fun a => ⟨[], by simp [merge]⟩
      | cons k b ih =>
        intro a
        have e : merge a (k :: b) = merge (if k ∈ a then a else a ++ [k]) b := rfl
        rw [e]
        split
        · exact ih a
        · obtain ⟨r, hr⟩ := ih (a ++ [k])
          exact ⟨[k] ++ r, by rw [hr, List.append_assoc]⟩
    obtain ⟨r', hr'⟩ := this t.keys acc
    exact ⟨r' ++ r, by rw [hr, hr', List.append_assoc]⟩

theorem keysL_nodup {A : Type} (l : List (Tree P A)) (acc : List P) (h : acc.Nodup) : (keysL l acc).Nodup := by
  induction l generalizing acc with
  | nil => exact h
  | cons t l ih => exact ih _ (merge_nodup _ _ h)

/-- The list of documents after loading: no file is listed twice, the root is first, and only included files are listed.
Each listed document was loaded. -/
theorem C16_listed_once (w : World P) (alive : Nat → Bool) (root : P) (fuel : Nat) (b : Bool) (h : Heap P)
    (he : create w alive fuel root = (.ok b, h)) :
    ∃ (l : List Nat) (L : List P), documentsList h.docs h.root = some l ∧ l.map (pathOf h.docs) = (root :: L).map some ∧ (root :: L).Nodup ∧
      (∀ p ∈ L, Reach w root p) ∧ (∀ y ∈ l, y ∈ h.loads) ∧ ∀ y ∈ l, timeOf h.docs y ≠ none := by
  obtain ⟨T, hT, t, ht1, ht2, ht3, ht4, ht5, ht6, ht7, ht8, ht9, lo, hl1, hl2, _⟩ := create_made he
  obtain ⟨d, hd, hk, _⟩ := documentsDict_rep t none ht3 ht5
  rw [ht1] at hd
  have hroot : h.root = 0 := ht7
  have hTk : T.keys = t.keys := by rw [← ht2, keys_erase]
  obtain ⟨acc, hTn⟩ : ∃ acc, T = .node () root acc := by
    cases fuel with
    | zero => simp [unfoldRoot] at hT
    | succ f =>
      rw [unfoldRoot] at hT
      split at hT
      · simp at hT
      · rw [Option.map_eq_some_iff] at hT
        obtain ⟨acc, _, rfl⟩ := hT
        exact ⟨acc, rfl⟩
  obtain ⟨r, hr⟩ := keysL_prefix acc [root]
  have hkeys : d.keys = root :: r := by
    rw [hk, ← hTk, hTn]; exact hr
  have hvals : ∀ y ∈ d.map (·.2), y ∈ t.labs := by
    have : ∀ y, (∃ k, (k, y) ∈ d) → y ∈ t.labs := by
      rintro y ⟨k, hm⟩
      exact docsDict_labs t none ht1 ht3 d hd (k, y) hm
    intro y hy
    obtain ⟨⟨k, v⟩, hm, rfl⟩ := List.mem_map.1 hy
    exact this v ⟨k, hm⟩
  refine ⟨d.map (·.2), r, ?_, ?_, ?_, ?_, ?_, ?_⟩
  · unfold documentsList; rw [hroot, hd]; rfl
  · rw [list_paths hd, hkeys]
  · rw [← hkeys, hk, ← hTk, hTn]
    exact keysL_nodup _ _ (by simp)
  · intro p hp
    apply unfoldRoot_reach fuel T hT
    rw [hTk, ← hk, hkeys]
    exact List.mem_cons_of_mem _ hp
  · intro y hy
    rw [hl1]
    exact List.mem_append_right _ (hl2 y (hvals y hy))
  · intro y hy
    obtain ⟨m, hm⟩ := timed_get t 0 ht4 y (hvals y hy)
    rw [hm]; simp

/-- Documents are listed in reading order, and every included file is listed, if the root does not include a file twice. What is
missing: the last hypothesis (`C16_duplicate_loses`), and that a document is listed before all the documents it includes
(`C16_order_refuted`). -/
theorem C16_reading_order_partial (w : World P) (alive : Nat → Bool) (root : P) (fuel : Nat) (b : Bool) (h : Heap P)
    (he : create w alive fuel root = (.ok b, h)) (hn : (inc w root).Nodup) :
    ∃ (l : List Nat) (L : List P), documentsList h.docs h.root = some l ∧ l.map (pathOf h.docs) = L.map some ∧ Reading w [root] (inc w root) L ∧ L.Nodup ∧
      ∀ p, p ∈ L ↔ Reach w root p := by
  obtain ⟨T, hT, t, ht1, ht2, ht3, ht4, ht5, ht6, ht7, ht8, ht9, lo, hl1, hl2, _⟩ := create_made he
  obtain ⟨d, hd, hk, _⟩ := documentsDict_rep t none ht3 ht5
  rw [ht1] at hd
  have hroot : h.root = 0 := ht7
  have hTk : T.keys = t.keys := by rw [← ht2, keys_erase]
  obtain ⟨hread, hcl⟩ := unfoldRoot_reading fuel T hT hn
  have hmem : root ∈ T.keys := by
    cases T with
    | node a p acc =>
      have hp : p = root := by
        cases fuel with
        | zero => simp [unfoldRoot] at hT
        | succ f =>
          rw [unfoldRoot] at hT
          split at hT
          · simp at hT
          · rw [Option.map_eq_some_iff] at hT
            obtain ⟨acc, _, he⟩ := hT
            cases he; rfl
      rw [mem_keys]; exact Or.inl hp.symm
  refine ⟨d.map (·.2), T.keys, ?_, ?_, hread, ?_, fun p => ⟨unfoldRoot_reach fuel T hT p, fun hp => ?_⟩⟩
  · unfold documentsList; rw [hroot, hd]; rfl
  · rw [list_paths hd, hk, hTk]
  · cases T with
    | node a p acc => exact keysL_nodup _ _ (by simp)
  · induction hp with
    | root => exact hmem
    | step _ hq ih => exact hcl _ ih (by simp) _ hq

theorem treeLike_unique {w : World P} {root : P} (h : TreeLike w root) : Unique w root :=
  fun p p' q h1 h2 h3 h4 => h.2 p p' q h1 h2 h3.1 h4.1 h3.2.1 h4.2.1 h3.2.2

/-- Each included file is loaded once, in the order of the list of documents, if each file is included in one place. What is
missing: without that condition it is false (`C16_diamond_loads_twice`). -/
theorem C16_loads_once_partial (w : World P) (alive : Nat → Bool) (root : P) (fuel : Nat) (b : Bool) (h : Heap P)
    (he : create w alive fuel root = (.ok b, h)) (ht : TreeLike w root) :
    ∃ L : List P, documentsList h.docs h.root = some h.loads ∧ h.loads.map (pathOf h.docs) = L.map some ∧ L.Nodup ∧ ∀ p, p ∈ L ↔ Reach w root p := by
  obtain ⟨l, L, h1, h2, h3, h4, h5⟩ := C16_reading_order_partial w alive root fuel b h he (ht.1 root)
  obtain ⟨T, hT, t, ht1, ht2, ht3, ht4, ht5, ht6, ht7, ht8, ht9, lo, hl1, hl2, hl3⟩ := create_made he
  have hpn : t.paths.Nodup := by
    rw [← paths_erase, ht2]
    exact unfoldRoot_paths (treeLike_unique ht) ht.1 fuel T hT
  obtain ⟨d, hd, _, hk⟩ := documentsDict_rep t none ht3 ht5
  have hroot : h.root = 0 := ht7
  have hl : documentsList h.docs h.root = some h.loads := by
    unfold documentsList
    rw [hroot, ← ht1, hd, hk (by rw [pairs_paths]; exact hpn), Option.map_some, pairs_labs, hl1, hl3 ht.1]
    rfl
  rw [hl] at h1
  obtain rfl := Option.some.inj h1
  exact ⟨L, hl, h2, h4, h5⟩

/-! ### Examples -/

/-- Files that change never, with given includes. -/
def files (c : List (List Nat)) : World Nat := fun p => (c[p]?).map fun l => { mtime := 1, sizeOk := true, includes := some l }

/-- A project with includes in a cycle that does not come back to the root is never loaded, whatever the limit on the depth of the
recursion, though all of its files are fine. -/
theorem C16_cycle_never_ends (alive : Nat → Bool) : (∀ p, Reach (files [[1], [2], [1]]) 0 p → (contents (files [[1], [2], [1]]) p).isSome) ∧
    ∀ fuel b h, create (files [[1], [2], [1]]) alive fuel 0 ≠ (.ok b, h) := by
  have hr : ∀ p, Reach (files [[1], [2], [1]]) 0 p → p = 0 ∨ p = 1 ∨ p = 2 := by
    intro p hp
    induction hp with
    | root => simp
    | @step p q _ hq ih =>
      rcases ih with rfl | rfl | rfl
      · have : q ∈ [1] := hq
        simp at this; simp [this]
      · have : q ∈ [2] := hq
        simp at this; simp [this]
      · have : q ∈ [1] := hq
        simp at this; simp [this]
  refine ⟨fun p hp => ?_, fun fuel b h he => ?_⟩
  · rcases hr p hp with rfl | rfl | rfl <;> rfl
  · refine ((C16_terminates (files [[1], [2], [1]]) alive 0).1 ⟨fuel, b, h, he⟩).1 ⟨fun i => if i = 0 then 0 else if i % 2 = 1 then 1 else 2, rfl, fun i => ?_⟩
    by_cases h0 : i = 0
    · subst h0
      decide
    · by_cases h1 : i % 2 = 1
      · have e1 : (i + 1) % 2 ≠ 1 := by omega
        simp only [h0, h1, e1, if_true, if_false, Nat.add_eq_zero_iff, Nat.one_ne_zero, and_false]
        decide
      · have e1 : (i + 1) % 2 = 1 := by omega
        simp only [h0, h1, e1, if_true, if_false, Nat.add_eq_zero_iff, Nat.one_ne_zero, and_false]
        decide

/-- A file that is included in two places is loaded twice. -/
theorem C16_diamond_loads_twice : ∃ h, create (files [[1, 2], [2], []]) (fun _ => true) 5 0 = (.ok true, h) ∧
    h.loads.map (pathOf h.docs) = [some 0, some 1, some 2, some 2] := ⟨_, rfl, rfl⟩

/-- A second line that includes the same file removes the documents that file includes from the project. -/
theorem C16_duplicate_loses : ∃ h, create (files [[1, 1], [2], []]) (fun _ => true) 5 0 = (.ok true, h) ∧
    (documentsList h.docs h.root).map (·.map (pathOf h.docs)) = some [some 0, some 1] := ⟨_, rfl, rfl⟩

/-- A document may be listed after a document that it includes. -/
theorem C16_order_refuted : ∃ h, create (files [[1, 2], [], [1]]) (fun _ => true) 5 0 = (.ok true, h) ∧
    (documentsList h.docs h.root).map (·.map (pathOf h.docs)) = some [some 0, some 1, some 2] := ⟨_, rfl, rfl⟩

/-- Documents that include the root, or themselves, are fine. -/
example : ∃ h, create (files [[1, 0], [2, 0, 1], [2, 3, 0], [4], [0]]) (fun _ => true) 9 0 = (.ok true, h) ∧
    (documentsList h.docs h.root).map (·.map (pathOf h.docs)) = some [some 0, some 1, some 2, some 3, some 4] ∧ h.loads = [0, 1, 2, 3, 4] := ⟨_, rfl, rfl, rfl⟩

example : TreeLike (files [[1, 2], [3], [], []]) 0 := by
  have hinc : ∀ p, inc (files [[1, 2], [3], [], []]) p = if p = 0 then [1, 2] else if p = 1 then [3] else [] := by
    intro p
    match p with
    | 0 => rfl
    | 1 => rfl
    | 2 => rfl
    | 3 => rfl
    | p + 4 => simp [inc, contents, files]
  refine ⟨fun p => ?_, ?_⟩
  · rw [hinc]; split
    · simp
    · split <;> simp
  · intro p p' q _ _ h1 h2 _ _ _
    rw [hinc] at h1 h2
    split at h1 <;> split at h2 <;> simp_all
    all_goals split at h1 <;> simp_all
    all_goals omega

/-! ## C17: loading again -/

/-- When a document is loaded again. -/
theorem C17_required (alive : Nat → Bool) (docs : List (Doc P)) (d : Doc P) (m : Nat) : loadRequired alive docs d m = true ↔
    d.loaded = false ∨ d.body = false ∨ d.mtime = none ∨ (∃ t, d.mtime = some t ∧ t < m) ∨
      ∃ t p pm, d.mtime = some t ∧ d.parent = some p ∧ alive p = true ∧ timeOf docs p = some pm ∧ t < pm := by
  unfold loadRequired timeOf
  cases hl : d.loaded with
  | false => simp
  | true =>
    cases hb : d.body with
    | false => simp
    | true =>
      cases hm : d.mtime with
      | none => simp
      | some t =>
        by_cases ht : t < m
        · simp [ht]
        · cases hp : d.parent with
          | none => simp [ht]
          | some p =>
            cases ha : alive p with
            | false => simp [ht, ha]
            | true =>
              cases hd : (docs[p]?).bind (·.mtime) with
              | none => simp [ht, ha, hd]
              | some pm => simp [ht, ha, hd]

/-- The state of a project. -/
structure State (w : World P) (root : P) (h : Heap P) (t : Tree P Nat) : Prop where
  rep : Rep (inc w) h.docs t none
  labs : t.labs.Nodup
  paths : t.paths.Nodup
  shape : Shape w root t
  path : t.path = root
  lab : t.lab = h.root
  timed : Timed w h.docs t 0

theorem inc_eq {w w' : World P} (h : ∀ p, contents w' p = contents w p) : inc w' = inc w := by
  funext p; unfold inc; rw [h]

mutual
  theorem shape_congr {w w' : World P} {root : P} (h : ∀ p, contents w' p = contents w p) : ∀ t : Tree P Nat, Shape w root t → Shape w' root t
    | .node a q l, hs => by
      simp only [Shape, shapeAt] at hs ⊢
      rw [h, inc_eq h]
      exact ⟨hs.1, hs.2.1, shapeL_congr h l hs.2.2⟩
  theorem shapeL_congr {w w' : World P} {root : P} (h : ∀ p, contents w' p = contents w p) : ∀ l : List (Tree P Nat), ShapeL w root l → ShapeL w' root l
    | [], _ => trivial
    | t :: l, hs => by
      simp only [ShapeL] at hs ⊢
      exact ⟨shape_congr h t hs.1, shapeL_congr h l hs.2⟩
end

/-- Loading again, from a state. -/
theorem load_state {w w' : World P} {root : P} {h : Heap P} {t : Tree P Nat} (hs : State w root h t) (hc : ∀ p, contents w' p = contents w p)
    (f : Nat) (hf : t.depth ≤ f) (reload : Bool) : ∃ b h', load w' (fun _ => true) f reload h h.root = (.ok b, h') ∧ State w' root h' t ∧
      Kept w' h h' t reload none ∧ (b = true ↔ reloads w' h.docs t reload none ≠ []) := by
  have hrep : Rep (inc w') h.docs t none := by rw [inc_eq hc]; exact hs.rep
  obtain ⟨b, h', h1, h2, h3⟩ := load_root w' root f t h reload hf hrep hs.labs hs.paths (shape_congr hc t hs.shape) hs.path hs.lab
  refine ⟨b, h', h1, ⟨?_, hs.labs, hs.paths, shape_congr hc t hs.shape, hs.path, hs.lab.trans h2.root.symm, ?_⟩, h2, h3⟩
  · exact rep_later t none hrep (fin_later t _ _ _ h2.fin)
  · exact fin_timed t none _ _ _ hrep h2.fin

theorem load_state' {w w' : World P} {root : P} {h h' : Heap P} {t : Tree P Nat} {f : Nat} {reload b : Bool} (hs : State w root h t)
    (hc : ∀ p, contents w' p = contents w p) (he : load w' (fun _ => true) f reload h h.root = (.ok b, h')) :
    State w' root h' t ∧ Kept w' h h' t reload none ∧ (b = true ↔ reloads w' h.docs t reload none ≠ []) := by
  obtain ⟨b2, h2, h1, h3⟩ := load_state hs hc (max f t.depth) (by omega) reload
  have := load_mono_le w' _ f (max f t.depth) (by omega) reload h h.root b h' he
  rw [this] at h1
  obtain ⟨e1, e2⟩ := Prod.mk.injEq .. ▸ h1
  obtain rfl := Except.ok.inj e1
  subst e2
  exact h3

theorem reach_congr {w w' : World P} {root : P} (h : ∀ p, contents w' p = contents w p) {p : P} (hp : Reach w' root p) : Reach w root p := by
  induction hp with
  | root => exact .root
  | step _ hq ih => rw [inc_eq h] at hq; exact .step ih hq

theorem treeLike_congr {w w' : World P} {root : P} (h : ∀ p, contents w' p = contents w p) (ht : TreeLike w root) : TreeLike w' root := by
  refine ⟨fun p => by rw [inc_eq h]; exact ht.1 p, fun p p' q h1 h2 h3 h4 => ?_⟩
  rw [inc_eq h] at h3 h4
  exact ht.2 p p' q (reach_congr h h1) (reach_congr h h2) h3 h4

theorem history_contents {C : P → Option (List P)} {root : P} {w : World P} {h : Heap P} (hh : History C root w h) : ∀ p, contents w p = C p := by
  cases hh <;> assumption

theorem history_state {C : P → Option (List P)} {root : P} {w : World P} {h : Heap P} (hh : History C root w h) (ht : TreeLike w root) :
    ∃ t, State w root h t := by
  induction hh with
  | @create w fuel b h hc he =>
    obtain ⟨T, hT, t, ht1, ht2, ht3, ht4, ht5, ht6, ht7, ht8, ht9, lo, hl1, hl2, hl3⟩ := create_made he
    refine ⟨t, ht3, ht5, ?_, ?_, ?_, ?_, ht4⟩
    · rw [← paths_erase, ht2]
      exact unfoldRoot_paths (treeLike_unique ht) ht.1 fuel T hT
    · rw [← shape_erase, ht2]
      exact unfoldRoot_shape (treeLike_unique ht) ht.1 fuel T hT
    · rw [← erase_path, ht2]
      cases fuel with
      | zero => simp [unfoldRoot] at hT
      | succ f =>
        rw [unfoldRoot] at hT
        split at hT
        · simp at hT
        · rw [Option.map_eq_some_iff] at hT
          obtain ⟨acc, _, rfl⟩ := hT
          rfl
    · rw [ht1]; exact ht7.symm
  | @load w w' fuel reload b h h' hprev hc he ih =>
    have hcc : ∀ p, contents w' p = contents w p := fun p => by rw [hc, history_contents hprev]
    obtain ⟨t, hs⟩ := ih (treeLike_congr (fun p => (hcc p).symm) ht)
    exact ⟨t, (load_state' hs hcc he).1⟩

theorem state_list {w : World P} {root : P} {h : Heap P} {t : Tree P Nat} (hs : State w root h t) : documentsList h.docs h.root = some t.labs := by
  obtain ⟨d, hd, _, hk⟩ := documentsDict_rep t none hs.rep hs.labs
  unfold documentsList
  rw [← hs.lab, hd, hk (by rw [pairs_paths]; exact hs.paths), Option.map_some, pairs_labs]

mutual
  theorem shape_paths {w : World P} {root : P} : ∀ t : Tree P Nat, Shape w root t → ∀ p ∈ t.paths, (w p).isSome
    | .node a q l, hs, p, hp => by
      simp only [Shape] at hs
      rcases List.mem_cons.1 hp with rfl | hp
      · have := hs.1
        unfold contents at this
        split at this
        · rename_i hw; rw [hw]; rfl
        · simp at this
      · exact shapeL_paths l hs.2.2 p hp
  theorem shapeL_paths {w : World P} {root : P} : ∀ l : List (Tree P Nat), ShapeL w root l → ∀ p ∈ pathsL l, (w p).isSome
    | [], _, p, hp => by simp [pathsL] at hp
    | t :: l, hs, p, hp => by
      simp only [ShapeL] at hs
      rcases List.mem_append.1 hp with hp | hp
      · exact shape_paths t hs.1 p hp
      · exact shapeL_paths l hs.2 p hp
end

/-- After any history of loads of a project whose includes stay the same, with any modification times of files: loading the root
document again reloads exactly the documents whose file, or whose parent's file, was modified after the time recorded for the
document (and the root document, if that is asked for), in the order of the documents; it tells whether there are any. The
documents stay the same. What is missing: projects whose includes change (`C17_reloads_forever`), or in which a file is
included in more than one place. -/
theorem C17_reload_partial (C : P → Option (List P)) (root : P) (w w' : World P) (h h' : Heap P) (fuel : Nat) (reload b : Bool)
    (hh : History C root w h) (ht : TreeLike w root) (hc : ∀ p, contents w' p = C p)
    (he : load w' (fun _ => true) fuel reload h h.root = (.ok b, h')) :
    ∃ l, documentsList h.docs h.root = some l ∧ documentsList h'.docs h'.root = some l ∧ l.map (pathOf h'.docs) = l.map (pathOf h.docs) ∧
      h'.loads = h.loads ++ l.filter (fun y => (reload && decide (y = h.root)) || stale w' h.docs y) ∧
      (b = true ↔ ∃ y ∈ l, (reload = true ∧ y = h.root) ∨ stale w' h.docs y = true) := by
  obtain ⟨t, hs⟩ := history_state hh ht
  have hcc : ∀ p, contents w' p = contents w p := fun p => by rw [hc, history_contents hh]
  obtain ⟨hs', hk, hb⟩ := load_state' hs hcc he
  have hre : reloads w' h.docs t reload none = t.labs.filter (fun y => (reload && decide (y = h.root)) || stale w' h.docs y) := by
    have hlab := hs.lab
    cases t with
    | node x p l =>
      obtain rfl : x = h.root := hlab
      exact reloads_root h.root p l hs.rep (shape_paths _ hs'.shape) hs.timed hs.labs reload
  refine ⟨t.labs, state_list hs, state_list hs', ?_, ?_, ?_⟩
  · rw [rep_paths t none hs.rep, rep_paths t none hs'.rep]
  · rw [hk.loads, hre]
  · rw [hb, hre, ne_eq, List.filter_eq_nil_iff]
    simp only [not_forall, not_not, exists_prop, Bool.or_eq_true, Bool.and_eq_true, decide_eq_true_eq]

/-- Loading again always works, if the includes stay the same. -/
theorem C17_load_works (C : P → Option (List P)) (root : P) (w w' : World P) (h : Heap P) (reload : Bool)
    (hh : History C root w h) (ht : TreeLike w root) (hc : ∀ p, contents w' p = C p) :
    ∃ b h', load w' (fun _ => true) h.docs.length reload h h.root = (.ok b, h') ∧ History C root w' h' := by
  obtain ⟨t, hs⟩ := history_state hh ht
  have hcc : ∀ p, contents w' p = contents w p := fun p => by rw [hc, history_contents hh]
  have h1 := depth_le t
  have h2 := length_le_of_nodup h.docs.length t.labs hs.labs (rep_lt t none hs.rep)
  obtain ⟨b, h', he, _⟩ := load_state hs hcc h.docs.length (by omega) reload
  exact ⟨b, h', he, .load hh hc he⟩

/-- Loading again without changes of files does nothing at all. -/
theorem C17_second_load_partial (C : P → Option (List P)) (root : P) (w : World P) (h h' : Heap P) (fuel : Nat) (b : Bool)
    (hh : History C root w h) (ht : TreeLike w root) (he : load w (fun _ => true) fuel false h h.root = (.ok b, h')) :
    b = false ∧ h' = h := by
  obtain ⟨t, hs⟩ := history_state hh ht
  obtain ⟨hs', hk, hb⟩ := load_state' hs (fun _ => rfl) he
  obtain ⟨h1, h2⟩ := fin_same t none 0 hs.timed (by simp) hk.fin
  have hbf : b = false := by
    cases b with
    | false => rfl
    | true => exact absurd h1 (hb.1 rfl)
  refine ⟨hbf, ?_⟩
  have hdocs : h'.docs = h.docs := by
    apply List.ext_getElem?
    intro i
    by_cases hi : i ∈ t.labs
    · exact h2 i hi
    · exact hk.out i hi
  have hloads := hk.loads
  rw [h1, List.append_nil] at hloads
  cases h; cases h'
  simp only at hdocs hloads
  have := hk.root
  simp only at this
  rw [hdocs, hloads, this]

mutual
  theorem timed_rep {w : World P} {I : P → List P} {docs : List (Doc P)} : ∀ (t : Tree P Nat) (par : Option Nat) (lo : Nat), Rep I docs t par → Timed w docs t lo →
      (∀ m, par.bind (timeOf docs) = some m → m ≤ lo) →
      ∀ y ∈ t.labs, ∃ d m, docs[y]? = some d ∧ timeOf docs y = some m ∧ (∀ f, w d.path = some f → f.mtime ≤ m) ∧ ∀ pm, d.parent.bind (timeOf docs) = some pm → pm ≤ m
    | .node x p l, par, lo, hr, ht, hpar, y, hy => by
      simp only [Rep] at hr
      simp only [Timed] at ht
      obtain ⟨⟨d, hd, hdp, _, hdpar, _⟩, hl⟩ := hr
      obtain ⟨m, hm, hlo, hf, htl⟩ := ht
      rcases List.mem_cons.1 hy with rfl | hy
      · refine ⟨d, m, hd, hm, by rw [hdp]; exact hf, fun pm hpm => ?_⟩
        rw [hdpar] at hpm
        have := hpar pm hpm
        omega
      · exact timedL_rep l x m hl htl hm y hy
  theorem timedL_rep {w : World P} {I : P → List P} {docs : List (Doc P)} : ∀ (l : List (Tree P Nat)) (x m : Nat), RepL I docs l x → TimedL w docs l m →
      timeOf docs x = some m →
      ∀ y ∈ labsL l, ∃ d m, docs[y]? = some d ∧ timeOf docs y = some m ∧ (∀ f, w d.path = some f → f.mtime ≤ m) ∧ ∀ pm, d.parent.bind (timeOf docs) = some pm → pm ≤ m
    | [], _, _, _, _, _, y, hy => by simp [labsL] at hy
    | t :: l, x, m, hr, ht, hm, y, hy => by
      simp only [RepL] at hr
      simp only [TimedL] at ht
      rcases List.mem_append.1 hy with hy | hy
      · exact timed_rep t (some x) m hr.1 ht.1 (fun v hv => by
          rw [Option.bind_some, hm] at hv
          have := Option.some.inj hv
          omega) y hy
      · exact timedL_rep l x m hr.2 ht.2 hm y hy
end

mutual
  theorem rep_loaded {I : P → List P} {docs : List (Doc P)} : ∀ (t : Tree P Nat) (par : Option Nat), Rep I docs t par →
      ∀ y ∈ t.labs, ∀ d, docs[y]? = some d → d.loaded = true ∧ d.body = true ∧ d.path ∈ t.paths
    | .node x p l, par, hr, y, hy, d, hd => by
      simp only [Rep] at hr
      obtain ⟨⟨d', hd', hp, _, _, hl, hb, _⟩, hrl⟩ := hr
      rcases List.mem_cons.1 hy with rfl | hy
      · rw [hd'] at hd
        obtain rfl := Option.some.inj hd
        exact ⟨hl, hb, by simp [Tree.paths, hp]⟩
      · obtain ⟨h1, h2, h3⟩ := repL_loaded l x hrl y hy d hd
        exact ⟨h1, h2, by simp [Tree.paths, h3]⟩
  theorem repL_loaded {I : P → List P} {docs : List (Doc P)} : ∀ (l : List (Tree P Nat)) (x : Nat), RepL I docs l x →
      ∀ y ∈ labsL l, ∀ d, docs[y]? = some d → d.loaded = true ∧ d.body = true ∧ d.path ∈ pathsL l
    | [], _, _, y, hy, _, _ => by simp [labsL] at hy
    | t :: l, x, hr, y, hy, d, hd => by
      simp only [RepL] at hr
      rcases List.mem_append.1 hy with hy | hy
      · obtain ⟨h1, h2, h3⟩ := rep_loaded t _ hr.1 y hy d hd
        exact ⟨h1, h2, by simp [pathsL, h3]⟩
      · obtain ⟨h1, h2, h3⟩ := repL_loaded l x hr.2 y hy d hd
        exact ⟨h1, h2, by simp [pathsL, h3]⟩
end

/-- After a load, the time recorded for a document is not before the modification time of its file, nor before the time of
its parent: no document requires a load. -/
theorem C17_settled_partial (C : P → Option (List P)) (root : P) (w : World P) (h : Heap P) (hh : History C root w h) (ht : TreeLike w root) :
    ∃ l, documentsList h.docs h.root = some l ∧ ∀ y ∈ l, ∃ d f, h.docs[y]? = some d ∧ w d.path = some f ∧
      loadRequired (fun _ => true) h.docs d f.mtime = false := by
  obtain ⟨t, hs⟩ := history_state hh ht
  refine ⟨t.labs, state_list hs, fun y hy => ?_⟩
  obtain ⟨d, m, h1, h2, h3, h4⟩ := timed_rep t none 0 hs.rep hs.timed (by simp) y hy
  obtain ⟨hl, hb, hp⟩ := rep_loaded t none hs.rep y hy d h1
  obtain ⟨f, hf⟩ := Option.isSome_iff_exists.1 (shape_paths t hs.shape d.path hp)
  refine ⟨d, f, h1, hf, ?_⟩
  have hm : d.mtime = some m := by unfold timeOf at h2; rw [h1] at h2; exact h2
  cases hr : loadRequired (fun _ => true) h.docs d f.mtime with
  | false => rfl
  | true =>
    exfalso
    rcases (C17_required _ _ _ _).1 hr with h | h | h | ⟨v, h, hv⟩ | ⟨v, p, pm, h, hp, _, hpm, hv⟩
    · rw [hl] at h; simp at h
    · rw [hb] at h; simp at h
    · rw [hm] at h; simp at h
    · rw [hm] at h
      obtain rfl := Option.some.inj h
      have := h3 f hf
      omega
    · rw [hm] at h
      obtain rfl := Option.some.inj h
      have := h4 pm (by rw [hp]; exact hpm)
      omega

/-! ### Projects that change -/

/-- After any edits of files, whatever was loaded before and however loads ended, a load that succeeds leaves the document and all
documents below it with the text and the includes that their files have now. -/
theorem C17_fresh (root : P) (w : World P) (now : Nat) (h h' : Heap P) (alive : Nat → Bool) (fuel x : Nat) (reload b : Bool)
    (he : Edits root w now h) (hl : load w alive fuel reload h x = (.ok b, h')) :
    ∀ y, Below h'.docs x y → ∃ d, h'.docs[y]? = some d ∧ UpToDate w d := by
  obtain ⟨hk, hw⟩ := he.known
  have := load_loaded hw alive fuel reload h x (fun _ => False) hk (fun _ h => h.elim)
  rw [hl] at this
  obtain ⟨V, _, hx, hv⟩ := this.2.2.2 b rfl
  intro y hy
  have : V y := by
    induction hy with
    | self => exact hx
    | sub _ hd hm ih =>
      obtain ⟨d', h1, _, h3⟩ := hv _ ih
      rw [hd] at h1
      cases h1
      exact h3 _ hm
  obtain ⟨d, h1, h2, _⟩ := hv y this
  exact ⟨d, h1, h2⟩

theorem unfoldRoot_path {w : World P} {root : P} {f : Nat} {T : Tree P Unit} (hT : unfoldRoot w f root = some T) : T.path = root := by
  cases f with
  | zero => simp [unfoldRoot] at hT
  | succ f =>
    rw [unfoldRoot] at hT
    split at hT
    · simp at hT
    · rw [Option.map_eq_some_iff] at hT
      obtain ⟨acc, _, rfl⟩ := hT
      rfl

/-- After any edits, loading the project again gives the same as loading it anew in a new process: the same documents in the same
order, with the same texts, includes and subdocuments. What is missing: projects in which a file is included in more than one place
(`C17_anew_refuted`). -/
theorem C17_anew_partial (root : P) (w : World P) (now : Nat) (h h' h0 : Heap P) (alive alive0 : Nat → Bool) (fuel fuel0 : Nat) (reload b b0 : Bool)
    (he : Edits root w now h) (ht : TreeLike w root) (hl : load w alive fuel reload h h.root = (.ok b, h'))
    (hc : create w alive0 fuel0 root = (.ok b0, h0)) :
    ∃ l l0, documentsList h'.docs h'.root = some l ∧ documentsList h0.docs h0.root = some l0 ∧ l.map (view h'.docs) = l0.map (view h0.docs) := by
  obtain ⟨hk, hw⟩ := he.known
  obtain ⟨T, hT, _⟩ := create_made hc
  obtain ⟨hk0, _⟩ := (Edits.new hw : Edits root w now _).known
  obtain ⟨l, a1, a2, a3⟩ := anew_list hk hw (treeLike_unique ht) ht.1 hT (unfoldRoot_path hT) hl
  obtain ⟨l0, b1, b2, b3⟩ := anew_list hk0 hw (treeLike_unique ht) ht.1 hT (unfoldRoot_path hT) hc
  refine ⟨l, l0, a1, b1, ?_⟩
  have key : ∀ (docs : List (Doc P)) (y : Nat) (d : Doc P), docs[y]? = some d → UpToDate w d → d.subs.keys = kids w root d.path (inc w d.path) →
      view docs y = (pathOf docs y).map fun p => (p, ((w p).map (·.text)).getD [], inc w p, kids w root p (inc w p)) := by
    intro docs y d hd hu hs
    unfold view pathOf
    rw [hd]
    obtain ⟨f, h1, _, h2, _⟩ := hu.2
    simp only [Option.map_some, hu.inc, h2, h1, Option.getD_some]
    rw [show d.subs.map (·.1) = d.subs.keys from rfl, hs]
  have hmap : ∀ (docs : List (Doc P)) (l : List Nat), (∀ y ∈ l, ∃ d, docs[y]? = some d ∧ UpToDate w d ∧ d.subs.keys = kids w root d.path (inc w d.path)) →
      l.map (view docs) = (l.map (pathOf docs)).map fun o => o.map fun p => (p, ((w p).map (·.text)).getD [], inc w p, kids w root p (inc w p)) := by
    intro docs l hy
    rw [List.map_map]
    apply List.map_congr_left
    intro y hm
    obtain ⟨d, h1, h2, h3⟩ := hy y hm
    exact key docs y d h1 h2 h3
  rw [hmap _ _ a3, hmap _ _ b3, a2, b2]

/-- After any edits, loading the project again works if loading it anew works. -/
theorem C17_works (root : P) (w : World P) (now : Nat) (h h0 : Heap P) (alive alive0 : Nat → Bool) (fuel0 : Nat) (reload b0 : Bool)
    (he : Edits root w now h) (hc : create w alive0 fuel0 root = (.ok b0, h0)) :
    ∃ n, ∀ fuel ≥ n, ∃ b h', load w alive fuel reload h h.root = (.ok b, h') := by
  obtain ⟨hk, hw⟩ := he.known
  obtain ⟨T, hT, _⟩ := create_made hc
  obtain ⟨n, hn⟩ := (unfoldRoot_good fuel0 T hT).canLoad hw alive
  refine ⟨n, fun fuel hf => ?_⟩
  obtain ⟨dr, hdr, hdrp⟩ := hk.first
  obtain ⟨b, hb⟩ := hn fuel hf reload h h.root hk he.acyclic (by unfold pathOf; rw [hdr, ← hdrp]; rfl)
  exact ⟨b, _, Prod.ext hb rfl⟩

/-- After any edits and loads, also failed ones, no document is below itself, and the documents can be listed. -/
theorem C17_listed (root : P) (w : World P) (now : Nat) (h : Heap P) (he : Edits root w now h) (x y : Nat) (hx : x < h.docs.length) :
    (Below h.docs x y → Below h.docs y x → x = y) ∧ ∃ l, documentsList h.docs x = some l := by
  refine ⟨he.acyclic.antisymm, ?_⟩
  obtain ⟨D, hD⟩ := he.acyclic.documentsDict hx
  exact ⟨D.map (·.2), by unfold documentsList; rw [hD]; rfl⟩

/-! ### Examples -/

/-- Files with modification times and includes. -/
def timed (c : List (Nat × List Nat)) : World Nat := fun p => (c[p]?).map fun l => { mtime := l.1, sizeOk := true, includes := some l.2 }

/-- The result of creating the root document, and of loading it with each of the files in turn. -/
def run (ws : List (World Nat)) : Option (Heap Nat) :=
  match ws with
  | [] => none
  | w :: ws =>
    match create w (fun _ => true) 9 0 with
    | (.ok _, h) => ws.foldl (fun h w => h.bind fun h => match load w (fun _ => true) 9 false h h.root with
      | (.ok _, h) => some h
      | _ => none) (some h)
    | _ => none

/-- If the root document changes, then the documents of the second level are reloaded, but not those of the third, though
they inherit the context of the root as well. -/
theorem C17_grandchild_not_reloaded : (run [timed [(1, [1]), (1, [2]), (1, [])], timed [(2, [1]), (1, [2]), (1, [])]]).map (·.loads) = some [0, 1, 2, 0, 1] := by
  decide

/-- A file that is replaced by one with an earlier time than that of a parent document is not reloaded. -/
theorem C17_older_file_not_reloaded : (run [timed [(5, [1]), (1, [])], timed [(5, [1]), (3, [])]]).map (·.loads) = some [0, 1] := by decide

/-- If an include is moved from one document to another, then the document may be reloaded each time, though no file changes. -/
theorem C17_reloads_forever : (run [timed [(1, [1]), (1, [2]), (1, [])], timed [(2, [2, 1]), (3, []), (1, [])], timed [(2, [2, 1]), (3, []), (1, [])],
    timed [(2, [2, 1]), (3, []), (1, [])]]).map (·.loads) = some [0, 1, 2, 0, 1, 2, 2] := by decide

/-- The files of the example below, at three times. -/
def files1 : World Nat := timed [(1, [1, 2]), (1, [3]), (1, []), (1, [])]
def files2 : World Nat := timed [(2, [2, 1, 4]), (1, [3]), (2, [3]), (1, [])]
def files3 : World Nat := timed [(2, [2, 1, 4]), (3, []), (2, [3]), (1, []), (3, [])]

/-- A project is edited while an include is missing, so that a load fails. An include is moved, and a file is made. -/
example : ∃ h h', Edits 0 files3 3 h ∧ TreeLike files3 0 ∧ h.loads = [0, 1, 2, 3, 0, 3, 4, 1] ∧ load files3 (fun _ => true) 9 false h h.root = (.ok true, h') ∧
    (documentsList h'.docs h'.root).map (·.map (pathOf h'.docs)) = some [some 0, some 2, some 3, some 1, some 4] := by
  have e0 : Edits 0 files1 1 _ := .new (fun p f hf => by
    match p with
    | 0 | 1 | 2 | 3 => obtain rfl := Option.some.inj hf; decide
    | p + 4 => cases hf)
  have e1 := e0.load (fuel := 9) (x := 0) (alive := fun _ => true) (reload := false)
  have e2 : Edits 0 files2 2 _ := e1.edit (fun p f hf => by
    match p with
    | 0 | 2 => obtain rfl := Option.some.inj hf; exact .inr (by decide)
    | 1 | 3 => exact .inl hf
    | p + 4 => cases hf) (fun p f hf => by
    match p with
    | 0 | 1 | 2 | 3 => obtain rfl := Option.some.inj hf; decide
    | p + 4 => cases hf) (by decide)
  have e3 := e2.load (fuel := 9) (x := 0) (alive := fun _ => true) (reload := false)
  have e4 : Edits 0 files3 3 _ := e3.edit (fun p f hf => by
    match p with
    | 1 | 4 => obtain rfl := Option.some.inj hf; exact .inr (by decide)
    | 0 | 2 | 3 => exact .inl hf
    | p + 5 => cases hf) (fun p f hf => by
    match p with
    | 0 | 1 | 2 | 3 | 4 => obtain rfl := Option.some.inj hf; decide
    | p + 5 => cases hf) (by decide)
  refine ⟨_, _, e4, ⟨?_, ?_⟩, rfl, rfl, rfl⟩
  · intro p
    match p with
    | 0 | 1 | 2 | 3 | 4 => decide
    | p + 5 => exact List.nodup_nil
  · intro p p' q _ _ h1 h2 _ _ _
    match p, p', h1, h2 with
    | 0, 0, _, _ | 2, 2, _, _ => rfl
    | 0, 2, h1, h2 => revert h1 h2; simp [inc, contents, files3, timed]; omega
    | 2, 0, h1, h2 => revert h1 h2; simp [inc, contents, files3, timed]; omega
    | 1, _, h1, _ | 3, _, h1, _ | 4, _, h1, _ => cases h1
    | _, 1, _, h1 | _, 3, _, h1 | _, 4, _, h1 => cases h1
    | p + 5, _, h1, _ => cases h1
    | _, p + 5, _, h1 => cases h1

/-- A file that is included in two places: loading again gives a subdocument that loading anew does not give. -/
theorem C17_anew_refuted : ∃ h h' h0 : Heap Nat, Edits 0 (timed [(2, [2, 1]), (1, [2]), (1, [])]) 2 h ∧
    load (timed [(2, [2, 1]), (1, [2]), (1, [])]) (fun _ => true) 9 false h h.root = (.ok true, h') ∧
    create (timed [(2, [2, 1]), (1, [2]), (1, [])]) (fun _ => true) 9 0 = (.ok true, h0) ∧
    (documentsList h'.docs h'.root).map (·.map (view h'.docs)) =
      some [some (0, [], [2, 1], [2, 1]), some (2, [], [], []), some (1, [], [2], [2])] ∧
    (documentsList h0.docs h0.root).map (·.map (view h0.docs)) =
      some [some (0, [], [2, 1], [2, 1]), some (2, [], [], []), some (1, [], [2], [])] := by
  have e0 : Edits 0 (timed [(1, [1]), (1, [2]), (1, [])]) 1 _ := .new (fun p f hf => by
    match p with
    | 0 | 1 | 2 => obtain rfl := Option.some.inj hf; decide
    | p + 3 => cases hf)
  have e1 := e0.load (fuel := 9) (x := 0) (alive := fun _ => true) (reload := false)
  have e2 : Edits 0 (timed [(2, [2, 1]), (1, [2]), (1, [])]) 2 _ := e1.edit (fun p f hf => by
    match p with
    | 0 => obtain rfl := Option.some.inj hf; exact .inr (by decide)
    | 1 | 2 => exact .inl hf
    | p + 3 => cases hf) (fun p f hf => by
    match p with
    | 0 | 1 | 2 => obtain rfl := Option.some.inj hf; decide
    | p + 3 => cases hf) (by decide)
  exact ⟨_, _, _, e2, rfl, rfl, rfl, rfl⟩

/-- A history: the project above is loaded, a file changes, and it is loaded again. -/
example : ∃ w h, History (contents (timed [(1, [1, 2]), (1, [3]), (1, []), (1, [])])) 0 w h ∧ h.loads = [0, 1, 2, 3, 1, 2] := by
  have hc : ∀ p, contents (timed [(1, [1, 2]), (2, [3]), (1, []), (1, [])]) p = contents (timed [(1, [1, 2]), (1, [3]), (1, []), (1, [])]) p := by
    intro p
    match p with
    | 0 | 1 | 2 | 3 => rfl
    | p + 4 => simp [contents, timed]
  exact ⟨_, _, .load (fuel := 5) (reload := false) (.create (fuel := 5) (fun _ => rfl) rfl) hc rfl, rfl⟩

theorem update_items {I : Type} [DecidableEq I] (d : Dict I Nat) (items : List (I × Nat)) (hd : d.keys.Nodup) :
    (d.update items).length ≤ d.length + items.length ∧
    ((d.update items).length = d.length + items.length → (d.keys ++ items.map (·.1)).Nodup) := by
  induction items generalizing d with
  | nil => simp [Dict.update, hd]
  | cons kv items ih =>
    obtain ⟨k, v⟩ := kv
    have hlen : (d.set k v).length = if k ∈ d.keys then d.length else d.length + 1 := by
      have hl : ∀ e : Dict I Nat, e.length = e.keys.length := fun e => by simp [Dict.keys]
      rw [hl, Dict.keys_set, hl d]
      by_cases hk : k ∈ d.keys
      · rw [if_pos hk, if_pos hk]
      · rw [if_neg hk, if_neg hk]; simp
    obtain ⟨h1, h2⟩ := ih (d.set k v) (Dict.keys_set_nodup d k v hd)
    have hu : d.update ((k, v) :: items) = (d.set k v).update items := rfl
    rw [hu]
    by_cases hk : k ∈ d.keys
    · rw [if_pos hk] at hlen
      simp only [List.length_cons]
      exact ⟨by omega, by omega⟩
    · rw [if_neg hk] at hlen
      simp only [List.length_cons]
      refine ⟨by omega, fun h => ?_⟩
      have := h2 (by omega)
      rw [Dict.keys_set, if_neg hk] at this
      simpa using this

/-- C16: the documents by identifier are all documents in the same order, unless two have the same identifier, which is
an error. -/
theorem C16_by_id {I : Type} [DecidableEq I] (idOf : Nat → I) (d : Dict P Nat) :
    ((d.map fun kv => idOf kv.2).Nodup → documentsById idOf d = some (d.map fun kv => (idOf kv.2, kv.2))) ∧
    (¬ (d.map fun kv => idOf kv.2).Nodup → documentsById idOf d = none) := by
  have e : (d.map fun kv => (idOf kv.2, kv.2)).map (·.1) = d.map fun kv => idOf kv.2 := by simp
  constructor
  · intro h
    have := Dict.update_append_new ([] : Dict I Nat) (d.map fun kv => (idOf kv.2, kv.2)) (by rw [e]; simpa using h)
    unfold documentsById
    simp only [List.nil_append] at this
    simp [this]
  · intro h
    obtain ⟨h1, h2⟩ := update_items ([] : Dict I Nat) (d.map fun kv => (idOf kv.2, kv.2)) (by simp)
    simp only [List.length_nil, Nat.zero_add, Dict.keys_nil, List.nil_append, List.length_map, e] at h1 h2
    unfold documentsById
    simp only
    rw [if_pos]
    apply Nat.lt_of_le_of_ne h1
    intro he
    exact h (h2 he)

example : documentsById (fun n => n % 2) [("a".toList, 0), ("b".toList, 1)] = some [(0, 0), (1, 1)] ∧
    documentsById (fun n => n % 2) [("a".toList, 0), ("b".toList, 2)] = none := by decide

end Verif.Documents
