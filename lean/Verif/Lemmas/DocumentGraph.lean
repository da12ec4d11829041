import Verif.Lemmas.DocumentCreate
import Mathlib.Logic.Relation
import Mathlib.Data.List.Nodup

/-!
# The trees of documents and the include graph
-/

namespace Verif.Documents

open Verif Verif.Documents.Spec

variable {P : Type} [DecidableEq P]

/-- An include that is followed: not of the file itself, not of the root. -/
def Arrow (w : World P) (root p q : P) : Prop := q ∈ inc w p ∧ q ≠ p ∧ q ≠ root

/-- A file that can be loaded, with all that it includes. -/
inductive Good (w : World P) (root : P) : P → Prop
  | mk {p : P} : (contents w p).isSome → (∀ q, Arrow w root p q → Good w root q) → Good w root p

section
variable {w : World P} {root : P}

theorem Good.loadable {p : P} (h : Good w root p) : (contents w p).isSome := by cases h; assumption

theorem Good.next {p q : P} (h : Good w root p) (ha : Arrow w root p q) : Good w root q := by
  cases h with
  | mk _ h => exact h q ha

theorem Good.acyclic {p : P} (h : Good w root p) : ¬ Relation.TransGen (Arrow w root) p p := by
  induction h with
  | mk _ _ ih =>
    intro ht
    obtain ⟨m, hm, ht'⟩ := Relation.TransGen.head'_iff.1 ht
    exact ih m hm (Relation.TransGen.tail'_iff.2 (by
      obtain ⟨c, h1, h2⟩ := Relation.TransGen.tail'_iff.1 (Relation.TransGen.trans_right ht' (Relation.TransGen.single hm))
      exact ⟨c, h1, h2⟩))

theorem Good.star {p q : P} (h : Good w root p) (hs : Relation.ReflTransGen (Arrow w root) p q) : Good w root q := by
  induction hs with
  | refl => exact h
  | tail _ ha ih => exact ih.next ha

theorem reach_star {p : P} (h : Reach w root p) : Relation.ReflTransGen (Arrow w root) root p := by
  induction h with
  | root => exact .refl
  | @step p q _ hq ih =>
    by_cases h1 : q = p
    · rw [h1]; exact ih
    · by_cases h2 : q = root
      · rw [h2]
      · exact ih.tail ⟨hq, h1, h2⟩

theorem star_reach {p : P} (h : Relation.ReflTransGen (Arrow w root) root p) : Reach w root p := by
  induction h with
  | refl => exact .root
  | tail _ ha ih => exact .step ih ha.1

/-- A file is not good only if there is an endless chain or a file that cannot be loaded. -/
theorem good_iff : Good w root root ↔ ¬ EndlessChain w root ∧ ∀ p, Reach w root p → (contents w p).isSome := by
  constructor
  · intro h
    refine ⟨?_, fun p hp => (h.star (reach_star hp)).loadable⟩
    rintro ⟨c, hc0, hc⟩
    have : ∀ p, Good w root p → ∀ i, c i ≠ p := by
      intro p hp
      induction hp with
      | mk _ _ ih =>
        intro i hi
        subst hi
        exact ih (c (i + 1)) (hc i) (i + 1) rfl
    exact this root h 0 hc0
  · rintro ⟨h1, h2⟩
    by_cases hg : Good w root root
    · exact hg
    · exfalso
      apply h1
      have hstep : ∀ p : { p // Reach w root p ∧ ¬ Good w root p }, ∃ q : { p // Reach w root p ∧ ¬ Good w root p },
          Arrow w root p.1 q.1 := by
        rintro ⟨p, hp, hng⟩
        by_cases hall : ∀ q, Arrow w root p q → Good w root q
        · exact absurd (Good.mk (h2 p hp) hall) hng
        · simp only [not_forall] at hall
          obtain ⟨q, ha, hq⟩ := hall
          exact ⟨⟨q, .step hp ha.1, hq⟩, ha⟩
      choose g hgs using hstep
      let c : Nat → { p // Reach w root p ∧ ¬ Good w root p } := fun n => Nat.rec ⟨root, .root, hg⟩ (fun _ p => g p) n
      exact ⟨fun i => (c i).1, rfl, fun i => hgs (c i)⟩

theorem mem_keysL {A : Type} (l : List (Tree P A)) (acc : List P) (k : P) : k ∈ keysL l acc ↔ k ∈ acc ∨ ∃ t ∈ l, k ∈ t.keys := by
  induction l generalizing acc with
  | nil => simp [keysL]
  | cons t l ih => simp only [keysL]; rw [ih, mem_merge]; simp [or_assoc]

theorem mem_keys {A : Type} (a : A) (p : P) (l : List (Tree P A)) (k : P) : k ∈ (Tree.node a p l).keys ↔ k = p ∨ ∃ t ∈ l, k ∈ t.keys := by
  simp only [Tree.keys]; rw [mem_keysL]; simp

theorem unfoldLoop_good (rec : List (Tree P Unit) → P → Option (Tree P Unit)) (skip : List P) (q : P)
    (hrec : ∀ acc m T, (∀ t ∈ acc, ∀ k ∈ t.keys, Good w root k) → rec acc m = some T → ∀ k ∈ T.keys, Good w root k)
    (hpath : ∀ acc m T, rec acc m = some T → m ∈ T.keys) :
    ∀ (ms : List P) (acc acc' : List (Tree P Unit)), (∀ t ∈ acc, ∀ k ∈ t.keys, Good w root k) → unfoldLoop rec skip q ms acc = some acc' →
      (∀ t ∈ acc', ∀ k ∈ t.keys, Good w root k) ∧ ∀ m ∈ ms, m = q ∨ m ∈ skip ∨ Good w root m := by
  intro ms
  induction ms with
  | nil =>
    intro acc acc' h he
    obtain rfl := Option.some.inj he
    exact ⟨h, by simp⟩
  | cons m ms ih =>
    intro acc acc' h he
    simp only [unfoldLoop] at he
    split at he
    · rename_i hm
      obtain ⟨h1, h2⟩ := ih _ _ h he
      refine ⟨h1, fun m' hm' => ?_⟩
      rcases List.mem_cons.1 hm' with rfl | hm'
      · exact hm.elim Or.inl fun h => Or.inr (Or.inl h)
      · exact h2 m' hm'
    · split at he
      · simp at he
      · rename_i T hT
        have hk := hrec acc m T h hT
        obtain ⟨h1, h2⟩ := ih _ _ (fun t ht => by
          rcases mem_put _ _ _ ht with rfl | ht
          · exact hk
          · exact h t ht) he
        refine ⟨h1, fun m' hm' => ?_⟩
        rcases List.mem_cons.1 hm' with rfl | hm'
        · exact Or.inr (Or.inr (hk _ (hpath _ _ _ hT)))
        · exact h2 m' hm'

theorem path_mem_keys {A : Type} (t : Tree P A) : t.path ∈ t.keys := by
  cases t with
  | node a p l => rw [mem_keys]; exact Or.inl rfl

theorem unfold_good (R : List P) (hR : ∀ k ∈ R, k = root ∨ Good w root k) : ∀ (f : Nat) (q : P) (T : Tree P Unit),
    unfold w R f q = some T → ∀ k ∈ T.keys, Good w root k := by
  intro f
  induction f with
  | zero => intro q T h; simp [unfold] at h
  | succ f ih =>
    intro q T h
    simp only [unfold] at h
    cases hc : contents w q with
    | none => rw [hc] at h; simp at h
    | some incs =>
      rw [hc] at h
      simp only [Option.map_eq_some_iff] at h
      obtain ⟨acc, hl, rfl⟩ := h
      obtain ⟨h1, h2⟩ := unfoldLoop_good (root := root) _ R q (fun _ m T _ hT => ih m T hT)
        (fun _ m T hT => by have := path_mem_keys T; rw [unfold_path w R f m T hT] at this; exact this) incs [] acc (by simp) hl
      intro k hk
      rcases (mem_keys _ _ _ _).1 hk with rfl | ⟨t, ht, hk⟩
      · refine Good.mk (by rw [hc]; rfl) fun m ha => ?_
        have hm : m ∈ incs := by have := ha.1; unfold inc at this; rw [hc] at this; exact this
        rcases h2 m hm with h | h | h
        · exact absurd h ha.2.1
        · exact (hR m h).resolve_left ha.2.2
        · exact h
      · exact h1 t ht k hk

theorem unfoldRoot_good (f : Nat) (T : Tree P Unit) (h : unfoldRoot w f root = some T) : Good w root root := by
  cases f with
  | zero => simp [unfoldRoot] at h
  | succ f =>
    simp only [unfoldRoot] at h
    cases hc : contents w root with
    | none => rw [hc] at h; simp at h
    | some incs =>
      rw [hc] at h
      simp only [Option.map_eq_some_iff] at h
      obtain ⟨acc, hl, rfl⟩ := h
      obtain ⟨h1, h2⟩ := unfoldLoop_good (w := w) (root := root) _ [root] root (fun acc m T hacc hT => by
          refine unfold_good _ ?_ f m T hT
          intro k hk
          rcases (mem_keys _ _ _ _).1 hk with rfl | ⟨t, ht, hk⟩
          · exact Or.inl rfl
          · exact Or.inr (hacc t ht k hk))
        (fun _ m T hT => by have := path_mem_keys T; rw [unfold_path w _ f m T hT] at this; exact this) incs [] acc (by simp) hl
      refine Good.mk (by rw [hc]; rfl) fun m ha => ?_
      have hm : m ∈ incs := by have := ha.1; unfold inc at this; rw [hc] at this; exact this
      rcases h2 m hm with h | h | h
      · exact absurd h ha.2.1
      · exact absurd (List.mem_singleton.1 h) ha.2.2
      · exact h

/-! ### Enough fuel -/

theorem unfoldLoop_some (rec : List (Tree P Unit) → P → Option (Tree P Unit)) (skip : List P) (q : P) :
    ∀ (ms : List P) (acc : List (Tree P Unit)), (∀ m ∈ ms, m ≠ q → m ∉ skip → ∀ acc, (rec acc m).isSome) →
      (unfoldLoop rec skip q ms acc).isSome := by
  intro ms
  induction ms with
  | nil => intros; rfl
  | cons m ms ih =>
    intro acc h
    simp only [unfoldLoop]
    split
    · exact ih _ fun m' hm' => h m' (List.mem_cons_of_mem _ hm')
    · rename_i hn
      have hs := h m (by simp) (fun e => hn (Or.inl e)) (fun e => hn (Or.inr e)) acc
      cases hr : rec acc m with
      | none => rw [hr] at hs; simp at hs
      | some T => exact ih _ fun m' hm' => h m' (List.mem_cons_of_mem _ hm')

theorem exists_bound {Q : P → Nat → Prop} (l : List P) (h : ∀ m ∈ l, ∃ n, ∀ k ≥ n, Q m k) : ∃ n, ∀ m ∈ l, ∀ k ≥ n, Q m k := by
  induction l with
  | nil => exact ⟨0, by simp⟩
  | cons a l ih =>
    obtain ⟨n1, h1⟩ := h a (by simp)
    obtain ⟨n2, h2⟩ := ih fun m hm => h m (List.mem_cons_of_mem _ hm)
    refine ⟨max n1 n2, fun m hm k hk => ?_⟩
    rcases List.mem_cons.1 hm with rfl | hm
    · exact h1 k (by omega)
    · exact h2 m hm k (by omega)

theorem good_unfold {q : P} (h : Good w root q) : ∃ n, ∀ f ≥ n, ∀ R, root ∈ R → (unfold w R f q).isSome := by
  induction h with
  | @mk p hc hn ih =>
    obtain ⟨incs, hc⟩ := Option.isSome_iff_exists.1 hc
    obtain ⟨n, hb⟩ := exists_bound (Q := fun m f => m ≠ p → m ≠ root → ∀ R, root ∈ R → (unfold w R f m).isSome) incs (by
      intro m hm
      by_cases ha : Arrow w root p m
      · obtain ⟨n, hh⟩ := ih m ha
        exact ⟨n, fun k hk _ _ => hh k hk⟩
      · refine ⟨0, fun k _ h1 h2 => absurd ⟨?_, h1, h2⟩ ha⟩
        unfold inc; rw [hc]; exact hm)
    refine ⟨n + 1, fun f hf R hR => ?_⟩
    obtain ⟨f, rfl⟩ : ∃ g, f = g + 1 := ⟨f - 1, by omega⟩
    simp only [unfold, hc, Option.isSome_map]
    exact unfoldLoop_some _ _ _ _ _ fun m hm h1 h2 _ => hb m hm f (by omega) h1 (fun e => h2 (e ▸ hR)) R hR

theorem good_unfoldRoot (h : Good w root root) : ∃ n, ∀ f ≥ n, (unfoldRoot w f root).isSome := by
  obtain ⟨incs, hc⟩ := Option.isSome_iff_exists.1 h.loadable
  obtain ⟨n, hb⟩ := exists_bound (Q := fun m f => m ≠ root → ∀ R, root ∈ R → (unfold w R f m).isSome) incs (by
    intro m hm
    by_cases hr : m = root
    · exact ⟨0, fun k _ h => absurd hr h⟩
    · obtain ⟨n, hh⟩ := good_unfold (h.next (q := m) ⟨by unfold inc; rw [hc]; exact hm, hr, hr⟩)
      exact ⟨n, fun k hk _ => hh k hk⟩)
  refine ⟨n + 1, fun f hf => ?_⟩
  obtain ⟨f, rfl⟩ : ∃ g, f = g + 1 := ⟨f - 1, by omega⟩
  simp only [unfoldRoot, hc, Option.isSome_map]
  exact unfoldLoop_some _ _ _ _ _ fun m hm h1 _ acc => hb m hm f (by omega) h1 _ ((mem_keys _ _ _ _).2 (Or.inl rfl))

/-! ### More fuel -/

theorem unfoldLoop_mono (rec rec' : List (Tree P Unit) → P → Option (Tree P Unit)) (skip : List P) (q : P)
    (h : ∀ acc m T, rec acc m = some T → rec' acc m = some T) : ∀ (ms : List P) (acc acc' : List (Tree P Unit)),
    unfoldLoop rec skip q ms acc = some acc' → unfoldLoop rec' skip q ms acc = some acc' := by
  intro ms
  induction ms with
  | nil => intro acc acc' h; exact h
  | cons m ms ih =>
    intro acc acc' he
    simp only [unfoldLoop] at he ⊢
    split
    · rename_i hc; rw [if_pos hc] at he; exact ih _ _ he
    · rename_i hc
      rw [if_neg hc] at he
      cases hr : rec acc m with
      | none => rw [hr] at he; simp at he
      | some T => rw [hr] at he; rw [h _ _ _ hr]; exact ih _ _ he

theorem unfold_succ (R : List P) : ∀ (f : Nat) (q : P) (T : Tree P Unit), unfold w R f q = some T → unfold w R (f + 1) q = some T := by
  intro f
  induction f with
  | zero => intro q T h; simp [unfold] at h
  | succ f ih =>
    intro q T h
    rw [unfold] at h ⊢
    cases hc : contents w q with
    | none => rw [hc] at h; simp at h
    | some incs =>
      rw [hc] at h
      simp only [Option.map_eq_some_iff] at h ⊢
      obtain ⟨acc, hl, rfl⟩ := h
      exact ⟨acc, unfoldLoop_mono _ _ _ _ (fun _ m T hT => ih m T hT) _ _ _ hl, rfl⟩

theorem unfoldRoot_mono (f f' : Nat) (hf : f ≤ f') (T : Tree P Unit) (h : unfoldRoot w f root = some T) : unfoldRoot w f' root = some T := by
  induction hf with
  | refl => exact h
  | @step g _ ih =>
    cases g with
    | zero => simp [unfoldRoot] at ih
    | succ g =>
      rw [unfoldRoot] at ih ⊢
      cases hc : contents w root with
      | none => rw [hc] at ih; simp at ih
      | some incs =>
        rw [hc] at ih
        simp only [Option.map_eq_some_iff] at ih ⊢
        obtain ⟨acc, hl, rfl⟩ := ih
        exact ⟨acc, unfoldLoop_mono _ _ _ _ (fun _ m T hT => unfold_succ _ g m T hT) _ _ _ hl, rfl⟩

/-! ### Reading order -/

theorem keysL_append {A : Type} (l l' : List (Tree P A)) (acc : List P) : keysL (l ++ l') acc = keysL l' (keysL l acc) := by
  induction l generalizing acc with
  | nil => rfl
  | cons t l ih => simp only [List.cons_append, keysL]; rw [ih]

theorem reading_cons {S S1 S2 ms : List P} {m : P} (h : Reading w S [m] S1) (h2 : Reading w S1 ms S2) : Reading w S (m :: ms) S2 := by
  cases h with
  | again hm h => cases h; exact .again hm h2
  | first hm h h' => cases h'; exact .first hm h h2

/-- Everything included by the files of `S` is in `S`, but for the files that are being read. -/
def Closed (w : World P) (S anc : List P) : Prop := ∀ p ∈ S, p ∉ anc → ∀ m ∈ inc w p, m ∈ S

theorem put_same {A : Type} (l : List (Tree P A)) (t : Tree P A) (h : ∀ s ∈ l, s.path = t.path → s = t) (hm : t.path ∈ l.map Tree.path) :
    put l t = l := by
  induction l with
  | nil => simp at hm
  | cons s l ih =>
    simp only [put]
    split
    · rename_i hp; rw [h s (by simp) hp]
    · rename_i hp
      rw [ih (fun s hs => h s (List.mem_cons_of_mem _ hs))]
      rw [List.map_cons, List.mem_cons] at hm
      exact hm.resolve_left fun e => hp e.symm

/-- The keys of a tree are reached from its file. -/
theorem unfold_star (R : List P) (hroot : root ∈ R) : ∀ (f : Nat) (q : P) (T : Tree P Unit), unfold w R f q = some T →
    ∀ k ∈ T.keys, Relation.ReflTransGen (Arrow w root) q k := by
  intro f
  induction f with
  | zero => intro q T h; simp [unfold] at h
  | succ f ih =>
    intro q T h
    rw [unfold] at h
    cases hc : contents w q with
    | none => rw [hc] at h; simp at h
    | some incs =>
      rw [hc] at h
      simp only [Option.map_eq_some_iff] at h
      obtain ⟨acc, hl, rfl⟩ := h
      have hloop : ∀ (ms : List P) (acc acc' : List (Tree P Unit)), (∀ m ∈ ms, m ∈ incs) →
          (∀ t ∈ acc, ∀ k ∈ t.keys, Relation.ReflTransGen (Arrow w root) q k) →
          unfoldLoop (fun _ m => unfold w R f m) R q ms acc = some acc' → ∀ t ∈ acc', ∀ k ∈ t.keys, Relation.ReflTransGen (Arrow w root) q k := by
        intro ms
        induction ms with
        | nil => intro acc acc' _ h he; obtain rfl := Option.some.inj he; exact h
        | cons m ms ihm =>
          intro acc acc' hsub h he
          simp only [unfoldLoop] at he
          split at he
          · exact ihm _ _ (fun m' hm' => hsub m' (List.mem_cons_of_mem _ hm')) h he
          · rename_i hn
            split at he
            · simp at he
            · rename_i T hT
              refine ihm _ _ (fun m' hm' => hsub m' (List.mem_cons_of_mem _ hm')) (fun t ht k hk => ?_) he
              rcases mem_put _ _ _ ht with rfl | ht
              · refine .head ⟨?_, fun e => hn (Or.inl e), fun e => hn (Or.inr (e ▸ hroot))⟩ (ih m _ hT k hk)
                unfold inc; rw [hc]; exact hsub m (by simp)
              · exact h t ht k hk
      intro k hk
      rcases (mem_keys _ _ _ _).1 hk with rfl | ⟨t, ht, hk⟩
      · exact .refl
      · exact hloop incs [] acc (fun _ h => h) (by simp) hl t ht k hk

theorem closed_star {S anc : List P} {q : P} (hc : Closed w S anc) (hq : q ∈ S) (hg : Good w root q)
    (hanc : ∀ p ∈ anc, Relation.TransGen (Arrow w root) p q) {k : P} (hs : Relation.ReflTransGen (Arrow w root) q k) : k ∈ S := by
  induction hs with
  | refl => exact hq
  | @tail p m hp ha ih =>
    refine hc p ih (fun hm => ?_) m ha.1
    have := hanc p hm
    exact hg.acyclic (Relation.TransGen.trans_right hp this)

theorem unfold_reading (R : List P) (hroot : root ∈ R) : ∀ (f : Nat) (q : P) (T : Tree P Unit), unfold w R f q = some T → Good w root q →
    ∀ S anc : List P, (∀ k ∈ R, k ∈ S) → Closed w S anc → (∀ p ∈ anc, Relation.TransGen (Arrow w root) p q) →
      Reading w S [q] (merge S T.keys) ∧ Closed w (merge S T.keys) anc := by
  intro f
  induction f with
  | zero => intro q T h; simp [unfold] at h
  | succ f ih =>
    intro q T h hg S anc hRS hcl hanc
    by_cases hq : q ∈ S
    · have hsub : ∀ k ∈ T.keys, k ∈ S := fun k hk => closed_star hcl hq hg hanc (unfold_star R hroot _ _ _ h k hk)
      rw [merge_subset _ _ hsub]
      exact ⟨.again hq (.done S), hcl⟩
    · rw [unfold] at h
      cases hc : contents w q with
      | none => rw [hc] at h; simp at h
      | some incs =>
        rw [hc] at h
        simp only [Option.map_eq_some_iff] at h
        obtain ⟨acc, hl, rfl⟩ := h
        have hinc : inc w q = incs := by unfold inc; rw [hc]; rfl
        have hloop : ∀ (ms : List P) (acc acc' : List (Tree P Unit)), (∀ m ∈ ms, m ∈ incs) →
            (∀ t ∈ acc, unfold w R f t.path = some t) →
            Closed w (merge S (keysL acc [q])) (q :: anc) →
            unfoldLoop (fun _ m => unfold w R f m) R q ms acc = some acc' →
            Reading w (merge S (keysL acc [q])) ms (merge S (keysL acc' [q])) ∧ Closed w (merge S (keysL acc' [q])) (q :: anc) ∧
              (∀ k ∈ merge S (keysL acc [q]), k ∈ merge S (keysL acc' [q])) ∧ ∀ m ∈ ms, m ∈ merge S (keysL acc' [q]) := by
          intro ms
          induction ms with
          | nil =>
            intro acc acc' _ _ hcl he
            obtain rfl := Option.some.inj he
            exact ⟨.done _, hcl, fun _ h => h, by simp⟩
          | cons m ms ihm =>
            intro acc acc' hsub hacc hcl he
            have hsub' : ∀ m' ∈ ms, m' ∈ incs := fun m' hm' => hsub m' (List.mem_cons_of_mem _ hm')
            simp only [unfoldLoop] at he
            split at he
            · rename_i hm
              obtain ⟨h1, h2, h3, h4⟩ := ihm _ _ hsub' hacc hcl he
              have hmem : m ∈ merge S (keysL acc [q]) := by
                rw [mem_merge, mem_keysL]
                rcases hm with rfl | hm
                · simp
                · exact Or.inl (hRS m hm)
              refine ⟨.again hmem h1, h2, h3, fun m' hm' => ?_⟩
              rcases List.mem_cons.1 hm' with rfl | hm'
              · exact h3 _ hmem
              · exact h4 m' hm'
            · rename_i hn
              split at he
              · simp at he
              · rename_i T hT
                have harr : Arrow w root q m :=
                  ⟨by rw [hinc]; exact hsub m (by simp), fun e => hn (Or.inl e), fun e => hn (Or.inr (e ▸ hroot))⟩
                have hTp := unfold_path w R f m T hT
                have hkey : merge S (keysL (put acc T) [q]) = merge (merge S (keysL acc [q])) T.keys := by
                  by_cases hp : T.path ∈ acc.map Tree.path
                  · have hsame : ∀ s ∈ acc, s.path = T.path → s = T := by
                      intro s hs hsp
                      have := hacc s hs
                      rw [hsp, hTp, hT] at this
                      exact (Option.some.inj this).symm
                    rw [put_same acc T hsame hp]
                    obtain ⟨s, hs, hsp⟩ := List.mem_map.1 hp
                    obtain rfl := hsame s hs hsp
                    rw [merge_subset _ s.keys]
                    intro k hk
                    rw [mem_merge, mem_keysL]
                    exact Or.inr (Or.inr ⟨s, hs, hk⟩)
                  · rw [put_new acc T hp, keysL_append]
                    simp only [keysL]
                    rw [merge_merge]
                obtain ⟨hr, hcl'⟩ := ih m T hT (hg.next harr) (merge S (keysL acc [q])) (q :: anc)
                  (fun k hk => by rw [mem_merge]; exact Or.inl (hRS k hk)) hcl (by
                    intro p hp
                    rcases List.mem_cons.1 hp with rfl | hp
                    · exact .single harr
                    · exact (hanc p hp).tail harr)
                rw [← hkey] at hr hcl'
                obtain ⟨h1, h2, h3, h4⟩ := ihm _ _ hsub' (by
                  intro t ht
                  rcases mem_put _ _ _ ht with rfl | ht
                  · rw [hTp]; exact hT
                  · exact hacc t ht) hcl' he
                have hmem : m ∈ merge S (keysL (put acc T) [q]) := by
                  rw [hkey, mem_merge]
                  have := path_mem_keys T
                  rw [hTp] at this
                  exact Or.inr this
                refine ⟨reading_cons hr h1, h2, fun k hk => h3 k (by rw [hkey, mem_merge]; exact Or.inl hk), fun m' hm' => ?_⟩
                rcases List.mem_cons.1 hm' with rfl | hm'
                · exact h3 _ hmem
                · exact h4 m' hm'
        have hS1 : merge S (keysL ([] : List (Tree P Unit)) [q]) = S ++ [q] := by
          simp [keysL, merge, hq]
        obtain ⟨h1, h2, h3, h4⟩ := hloop incs [] acc (fun _ h => h) (by simp) (by
          rw [hS1]
          intro p hp hpa m hm
          rcases List.mem_append.1 hp with hp | hp
          · exact List.mem_append_left _ (hcl p hp (fun h => hpa (List.mem_cons_of_mem _ h)) m hm)
          · exact absurd (by rw [List.mem_singleton.1 hp]; simp) hpa) hl
        rw [hS1] at h1
        simp only [Tree.keys]
        refine ⟨.first hq (by rw [hinc]; exact h1) (.done _), fun p hp hpa m hm => ?_⟩
        by_cases hpq : p = q
        · rw [hpq, hinc] at hm; exact h4 m hm
        · exact h2 p hp (fun h => (List.mem_cons.1 h).elim hpq hpa) m hm

theorem unfoldRoot_reading (f : Nat) (T : Tree P Unit) (h : unfoldRoot w f root = some T) (hn : (inc w root).Nodup) :
    Reading w [root] (inc w root) T.keys ∧ Closed w T.keys [] := by
  have hg := unfoldRoot_good f T h
  cases f with
  | zero => simp [unfoldRoot] at h
  | succ f =>
    rw [unfoldRoot] at h
    cases hc : contents w root with
    | none => rw [hc] at h; simp at h
    | some incs =>
      rw [hc] at h
      simp only [Option.map_eq_some_iff] at h
      obtain ⟨acc, hl, rfl⟩ := h
      have hinc : inc w root = incs := by unfold inc; rw [hc]; rfl
      rw [hinc] at hn ⊢
      have hloop : ∀ (ms : List P) (acc acc' : List (Tree P Unit)), (∀ m ∈ ms, m ∈ incs) → (acc.map Tree.path ++ ms).Nodup →
          Closed w (keysL acc [root]) [root] →
          unfoldLoop (fun acc m => unfold w (Tree.keys (.node () root acc)) f m) [root] root ms acc = some acc' →
          Reading w (keysL acc [root]) ms (keysL acc' [root]) ∧ Closed w (keysL acc' [root]) [root] ∧
            (∀ k ∈ keysL acc [root], k ∈ keysL acc' [root]) ∧ ∀ m ∈ ms, m ∈ keysL acc' [root] := by
        intro ms
        induction ms with
        | nil =>
          intro acc acc' _ _ hcl he
          obtain rfl := Option.some.inj he
          exact ⟨.done _, hcl, fun _ h => h, by simp⟩
        | cons m ms ihm =>
          intro acc acc' hsub hnd hcl he
          have hsub' : ∀ m' ∈ ms, m' ∈ incs := fun m' hm' => hsub m' (List.mem_cons_of_mem _ hm')
          have hnd' : (acc.map Tree.path ++ ms).Nodup := by
            rw [List.nodup_append] at hnd ⊢
            exact ⟨hnd.1, (List.nodup_cons.1 hnd.2.1).2, fun a ha b hb => hnd.2.2 a ha b (List.mem_cons_of_mem _ hb)⟩
          simp only [unfoldLoop] at he
          split at he
          · rename_i hm
            have hmr : m = root := hm.elim id List.mem_singleton.1
            obtain ⟨h1, h2, h3, h4⟩ := ihm _ _ hsub' hnd' hcl he
            have hmem : m ∈ keysL acc [root] := by
              rw [mem_keysL]; exact Or.inl (by simp [hmr])
            refine ⟨.again hmem h1, h2, h3, fun m' hm' => ?_⟩
            rcases List.mem_cons.1 hm' with rfl | hm'
            · exact h3 _ hmem
            · exact h4 m' hm'
          · rename_i hm
            have hmr : m ≠ root := fun e => hm (Or.inl e)
            split at he
            · simp at he
            · rename_i T hT
              have harr : Arrow w root root m := ⟨by rw [hinc]; exact hsub m (by simp), hmr, hmr⟩
              have hTp := unfold_path w _ f m T hT
              have hfresh : T.path ∉ acc.map Tree.path := by
                rw [List.nodup_append] at hnd
                exact fun h => hnd.2.2 _ h m (by simp) hTp
              have hkey : keysL (put acc T) [root] = merge (keysL acc [root]) T.keys := by
                rw [put_new acc T hfresh, keysL_append]; rfl
              obtain ⟨hr, hcl'⟩ := unfold_reading _ ((mem_keys _ _ _ _).2 (Or.inl rfl)) f m T hT (hg.next harr) (keysL acc [root]) [root]
                (fun k hk => hk) hcl (by
                  intro p hp
                  rw [List.mem_singleton.1 hp]
                  exact .single harr)
              rw [← hkey] at hr hcl'
              obtain ⟨h1, h2, h3, h4⟩ := ihm _ _ hsub' (by
                rw [put_new acc T hfresh, List.map_append, List.append_assoc, List.map_singleton, hTp]
                exact hnd) hcl' he
              have hmem : m ∈ keysL (put acc T) [root] := by
                rw [hkey, mem_merge]
                have := path_mem_keys T
                rw [hTp] at this
                exact Or.inr this
              refine ⟨reading_cons hr h1, h2, fun k hk => h3 k (by rw [hkey, mem_merge]; exact Or.inl hk), fun m' hm' => ?_⟩
              rcases List.mem_cons.1 hm' with rfl | hm'
              · exact h3 _ hmem
              · exact h4 m' hm'
      obtain ⟨h1, h2, h3, h4⟩ := hloop incs [] acc (fun _ h => h) (by simpa using hn) (by
        intro p hp hpa m hm
        exact absurd hp (by simpa [keysL] using hpa)) hl
      simp only [Tree.keys]
      refine ⟨h1, fun p hp _ m hm => ?_⟩
      by_cases hpr : p = root
      · rw [hpr, hinc] at hm; exact h4 m hm
      · exact h2 p hp (by simpa using hpr) m hm

/-- The files of a root document are reached. -/
theorem unfoldRoot_reach (f : Nat) (T : Tree P Unit) (h : unfoldRoot w f root = some T) : ∀ k ∈ T.keys, Reach w root k := by
  cases f with
  | zero => simp [unfoldRoot] at h
  | succ f =>
    rw [unfoldRoot] at h
    cases hc : contents w root with
    | none => rw [hc] at h; simp at h
    | some incs =>
      rw [hc] at h
      simp only [Option.map_eq_some_iff] at h
      obtain ⟨acc, hl, rfl⟩ := h
      have hinc : inc w root = incs := by unfold inc; rw [hc]; rfl
      have hloop : ∀ (ms : List P) (acc acc' : List (Tree P Unit)), (∀ m ∈ ms, m ∈ incs) → (∀ t ∈ acc, ∀ k ∈ t.keys, Reach w root k) →
          unfoldLoop (fun acc m => unfold w (Tree.keys (.node () root acc)) f m) [root] root ms acc = some acc' →
          ∀ t ∈ acc', ∀ k ∈ t.keys, Reach w root k := by
        intro ms
        induction ms with
        | nil => intro acc acc' _ h he; obtain rfl := Option.some.inj he; exact h
        | cons m ms ihm =>
          intro acc acc' hsub h he
          simp only [unfoldLoop] at he
          split at he
          · exact ihm _ _ (fun m' hm' => hsub m' (List.mem_cons_of_mem _ hm')) h he
          · rename_i hn
            split at he
            · simp at he
            · rename_i T hT
              refine ihm _ _ (fun m' hm' => hsub m' (List.mem_cons_of_mem _ hm')) (fun t ht k hk => ?_) he
              rcases mem_put _ _ _ ht with rfl | ht
              · have hmr : m ≠ root := fun e => hn (Or.inl e)
                refine star_reach (.head (b := m) ⟨by rw [hinc]; exact hsub m (by simp), hmr, hmr⟩ ?_)
                exact unfold_star _ ((mem_keys _ _ _ _).2 (Or.inl rfl)) f m _ hT k hk
              · exact h t ht k hk
      intro k hk
      rcases (mem_keys _ _ _ _).1 hk with rfl | ⟨t, ht, hk⟩
      · exact .root
      · exact hloop incs [] acc (fun _ h => h) (by simp) hl t ht k hk

/-! ### Files that are included once -/

/-- Each file but the root is included from one place. -/
def Unique (w : World P) (root : P) : Prop := ∀ p p' q, Reach w root p → Reach w root p' → Arrow w root p q → Arrow w root p' q → p = p'

theorem star_compare (hu : Unique w root) {a b k : P} (ha0 : Reach w root a) (hb0 : Reach w root b)
    (ha : Relation.ReflTransGen (Arrow w root) a k) (hb : Relation.ReflTransGen (Arrow w root) b k) :
    Relation.ReflTransGen (Arrow w root) a b ∨ Relation.ReflTransGen (Arrow w root) b a := by
  induction ha with
  | refl => exact Or.inr hb
  | @tail p k hp hpk ih =>
    rcases Relation.ReflTransGen.cases_tail hb with h | ⟨p', hp', hpk'⟩
    · rw [← h]; exact Or.inl (hp.tail hpk)
    · have r1 : Reach w root p := star_reach ((reach_star ha0).trans hp)
      have r2 : Reach w root p' := star_reach ((reach_star hb0).trans hp')
      obtain rfl := hu p p' k r1 r2 hpk hpk'
      exact ih hp'

theorem siblings (hu : Unique w root) {q a b k : P} (hq : Reach w root q) (hg : Good w root q) (ha : Arrow w root q a) (hb : Arrow w root q b) (hne : a ≠ b)
    (hak : Relation.ReflTransGen (Arrow w root) a k) (hbk : Relation.ReflTransGen (Arrow w root) b k) : False := by
  have key : ∀ a b, a ≠ b → Arrow w root q a → Arrow w root q b → ¬ Relation.ReflTransGen (Arrow w root) a b := by
    intro a b hne ha hb hab
    rcases Relation.ReflTransGen.cases_tail hab with h | ⟨p, hp, hpb⟩
    · exact hne h.symm
    · have r1 : Reach w root p := star_reach ((reach_star hq).trans (.head ha hp))
      obtain rfl := hu p q b r1 hq hpb hb
      exact hg.acyclic (Relation.TransGen.head' ha hp)
  rcases star_compare hu (.step hq ha.1) (.step hq hb.1) hak hbk with h | h
  · exact key a b hne ha hb h
  · exact key b a (Ne.symm hne) hb ha h

mutual
  def Tree.paths {A : Type} : Tree P A → List P
    | .node _ p l => p :: pathsL l
  def pathsL {A : Type} : List (Tree P A) → List P
    | [] => []
    | t :: l => t.paths ++ pathsL l
end

theorem pathsL_append {A : Type} (l l' : List (Tree P A)) : pathsL (l ++ l') = pathsL l ++ pathsL l' := by
  induction l with
  | nil => rfl
  | cons t l ih => simp [pathsL, ih]

theorem mem_pathsL {A : Type} (l : List (Tree P A)) (k : P) : k ∈ pathsL l ↔ ∃ t ∈ l, k ∈ t.paths := by
  induction l with
  | nil => simp [pathsL]
  | cons t l ih => simp [pathsL, ih]

mutual
  theorem paths_erase {A : Type} : ∀ t : Tree P A, t.erase.paths = t.paths
    | .node _ p l => by simp only [Tree.erase, Tree.paths]; rw [pathsL_erase l]
  theorem pathsL_erase {A : Type} : ∀ l : List (Tree P A), pathsL (eraseL l) = pathsL l
    | [] => rfl
    | t :: l => by simp only [eraseL, pathsL]; rw [paths_erase t, pathsL_erase l]
end

mutual
  theorem merge_keys {A : Type} : ∀ (t : Tree P A) (S : List P), merge S t.keys = merge S t.paths
    | .node a p l, S => by
      simp only [Tree.keys, Tree.paths]
      rw [keysL_merge, show (p :: pathsL l) = [p] ++ pathsL l from rfl, merge_append, merge_keysL l]
  theorem merge_keysL {A : Type} : ∀ (l : List (Tree P A)) (S : List P), keysL l S = merge S (pathsL l)
    | [], S => rfl
    | t :: l, S => by simp only [keysL, pathsL]; rw [merge_keys t, merge_append, merge_keysL l]
end

theorem merge_nodup_eq (S l : List P) (h : (S ++ l).Nodup) : merge S l = S ++ l := by
  induction l generalizing S with
  | nil => simp [merge]
  | cons a l ih =>
    have e : merge S (a :: l) = merge (if a ∈ S then S else S ++ [a]) l := rfl
    have hna : a ∉ S := by
      rw [List.nodup_append] at h
      exact fun hm => h.2.2 a hm a (by simp) rfl
    rw [e, if_neg hna, ih _ (by simpa using h)]
    simp

theorem keys_eq_paths {A : Type} (t : Tree P A) (h : t.paths.Nodup) : t.keys = t.paths := by
  cases t with
  | node a p l =>
    simp only [Tree.keys, Tree.paths] at h ⊢
    rw [merge_keysL, merge_nodup_eq _ _ (by simpa using h)]
    rfl

theorem unfoldLoop_paths (rec : List (Tree P Unit) → P → Option (Tree P Unit)) (skip : List P) (q : P) (hroot : root ∈ skip)
    (hu : Unique w root) (hq : Reach w root q) (hg : Good w root q)
    (hrec : ∀ acc m T, Arrow w root q m → rec acc m = some T → T.path = m ∧ T.paths.Nodup ∧ ∀ k ∈ T.paths, Relation.ReflTransGen (Arrow w root) m k) :
    ∀ (ms : List P) (acc acc' : List (Tree P Unit)), (∀ m ∈ ms, m ∈ inc w q) → (acc.map Tree.path ++ ms).Nodup →
      (pathsL acc).Nodup → (∀ t ∈ acc, Arrow w root q t.path ∧ ∀ k ∈ t.paths, Relation.ReflTransGen (Arrow w root) t.path k) →
      unfoldLoop rec skip q ms acc = some acc' →
      (pathsL acc').Nodup ∧ ∀ t ∈ acc', Arrow w root q t.path ∧ ∀ k ∈ t.paths, Relation.ReflTransGen (Arrow w root) t.path k := by
  intro ms
  induction ms with
  | nil =>
    intro acc acc' _ _ h1 h2 he
    obtain rfl := Option.some.inj he
    exact ⟨h1, h2⟩
  | cons m ms ih =>
    intro acc acc' hsub hnd h1 h2 he
    have hsub' : ∀ m' ∈ ms, m' ∈ inc w q := fun m' hm' => hsub m' (List.mem_cons_of_mem _ hm')
    simp only [unfoldLoop] at he
    split at he
    · refine ih _ _ hsub' ?_ h1 h2 he
      rw [List.nodup_append] at hnd ⊢
      exact ⟨hnd.1, (List.nodup_cons.1 hnd.2.1).2, fun a ha b hb => hnd.2.2 a ha b (List.mem_cons_of_mem _ hb)⟩
    · rename_i hn
      split at he
      · simp at he
      · rename_i T hT
        have harr : Arrow w root q m := ⟨hsub m (by simp), fun e => hn (Or.inl e), fun e => hn (Or.inr (e ▸ hroot))⟩
        obtain ⟨hp, hTn, hTs⟩ := hrec _ _ _ harr hT
        have hfresh : T.path ∉ acc.map Tree.path := by
          rw [List.nodup_append] at hnd
          exact fun h => hnd.2.2 _ h m (by simp) hp
        rw [put_new acc T hfresh] at he
        refine ih _ _ hsub' ?_ ?_ ?_ he
        · rw [List.map_append, List.append_assoc, List.map_singleton, hp]; exact hnd
        · rw [pathsL_append, List.nodup_append]
          refine ⟨h1, by simpa [pathsL] using hTn, ?_⟩
          intro k hk k' hk' e
          subst e
          obtain ⟨s, hs, hks⟩ := (mem_pathsL _ _).1 hk
          have hkT : k ∈ T.paths := by simpa [pathsL] using hk'
          obtain ⟨hsa, hss⟩ := h2 s hs
          refine siblings hu hq hg hsa harr ?_ (hss k hks) (hTs k hkT)
          intro e
          exact hfresh (List.mem_map.2 ⟨s, hs, by rw [e, hp]⟩)
        · intro t ht
          rcases List.mem_append.1 ht with ht | ht
          · exact h2 t ht
          · rw [List.mem_singleton.1 ht, hp]; exact ⟨harr, hTs⟩

theorem unfold_paths (R : List P) (hroot : root ∈ R) (hu : Unique w root) (hn : ∀ p, (inc w p).Nodup) : ∀ (f : Nat) (q : P) (T : Tree P Unit),
    Reach w root q → Good w root q → unfold w R f q = some T → T.path = q ∧ T.paths.Nodup ∧ ∀ k ∈ T.paths, Relation.ReflTransGen (Arrow w root) q k := by
  intro f
  induction f with
  | zero => intro q T _ _ h; simp [unfold] at h
  | succ f ih =>
    intro q T hq hg h
    rw [unfold] at h
    cases hc : contents w q with
    | none => rw [hc] at h; simp at h
    | some incs =>
      rw [hc] at h
      simp only [Option.map_eq_some_iff] at h
      obtain ⟨acc, hl, rfl⟩ := h
      have hinc : inc w q = incs := by unfold inc; rw [hc]; rfl
      obtain ⟨h1, h2⟩ := unfoldLoop_paths (w := w) (root := root) _ R q hroot hu hq hg
        (fun _ m T ha hT => ih m T (.step hq ha.1) (hg.next ha) hT) incs [] acc (by rw [hinc]; exact fun _ h => h) (by have := hn q; rw [hinc] at this; simpa using this)
        (by simp [pathsL]) (by simp) hl
      refine ⟨rfl, ?_, ?_⟩
      · simp only [Tree.paths, List.nodup_cons]
        refine ⟨fun hm => ?_, h1⟩
        obtain ⟨t, ht, hk⟩ := (mem_pathsL _ _).1 hm
        exact hg.acyclic (Relation.TransGen.head' (h2 t ht).1 ((h2 t ht).2 q hk))
      · intro k hk
        rcases List.mem_cons.1 hk with rfl | hk
        · exact .refl
        · obtain ⟨t, ht, hk⟩ := (mem_pathsL _ _).1 hk
          exact .head (h2 t ht).1 ((h2 t ht).2 k hk)

theorem unfoldRoot_paths (hu : Unique w root) (hn : ∀ p, (inc w p).Nodup) (f : Nat) (T : Tree P Unit) (h : unfoldRoot w f root = some T) :
    T.paths.Nodup := by
  have hg := unfoldRoot_good f T h
  cases f with
  | zero => simp [unfoldRoot] at h
  | succ f =>
    rw [unfoldRoot] at h
    cases hc : contents w root with
    | none => rw [hc] at h; simp at h
    | some incs =>
      rw [hc] at h
      simp only [Option.map_eq_some_iff] at h
      obtain ⟨acc, hl, rfl⟩ := h
      have hinc : inc w root = incs := by unfold inc; rw [hc]; rfl
      obtain ⟨h1, h2⟩ := unfoldLoop_paths (w := w) (root := root) _ [root] root (by simp) hu .root hg
        (fun acc m T ha hT => unfold_paths _ ((mem_keys _ _ _ _).2 (Or.inl rfl)) hu hn f m T (.step .root ha.1) (hg.next ha) hT) incs [] acc
        (by rw [hinc]; exact fun _ h => h) (by have := hn root; rw [hinc] at this; simpa using this)
        (by simp [pathsL]) (by simp) hl
      simp only [Tree.paths, List.nodup_cons]
      refine ⟨fun hm => ?_, h1⟩
      obtain ⟨t, ht, hk⟩ := (mem_pathsL _ _).1 hm
      exact hg.acyclic (Relation.TransGen.head' (h2 t ht).1 ((h2 t ht).2 root hk))

/-! ### The heap -/

mutual
  theorem rep_paths {I : P → List P} {docs : List (Doc P)} : ∀ (t : Tree P Nat) (par : Option Nat), Rep I docs t par →
      t.labs.map (pathOf docs) = t.paths.map some
    | .node x p l, par, h => by
      simp only [Rep] at h
      obtain ⟨⟨d, h1, h2, _⟩, hl⟩ := h
      simp only [Tree.labs, Tree.paths, List.map_cons]
      rw [repL_paths l x hl, show pathOf docs x = some p by unfold pathOf; rw [h1]; simp [h2]]
  theorem repL_paths {I : P → List P} {docs : List (Doc P)} : ∀ (l : List (Tree P Nat)) (x : Nat), RepL I docs l x →
      (labsL l).map (pathOf docs) = (pathsL l).map some
    | [], _, _ => rfl
    | t :: l, x, h => by
      simp only [RepL] at h
      simp only [labsL, pathsL, List.map_append]
      rw [rep_paths t _ h.1, repL_paths l x h.2]
end

/-- The entries of `documents_dict` are under their paths. -/
theorem docsDict_paths (docs : List (Doc P)) : ∀ (fuel x : Nat) (d : Dict P Nat), docsDict docs fuel x = some d →
    ∀ kv ∈ d, pathOf docs kv.2 = some kv.1 := by
  have hset : ∀ (d : Dict P Nat) (k : P) (v : Nat), (∀ kv ∈ d, pathOf docs kv.2 = some kv.1) → pathOf docs v = some k →
      ∀ kv ∈ d.set k v, pathOf docs kv.2 = some kv.1 := by
    intro d
    induction d with
    | nil => intro k v _ hv kv hm; rw [List.mem_singleton.1 hm]; exact hv
    | cons a d ih =>
      intro k v h hv kv hm
      simp only [Dict.set] at hm
      split at hm
      · rename_i e
        rcases List.mem_cons.1 hm with rfl | hm
        · rw [e]; exact hv
        · exact h kv (List.mem_cons_of_mem _ hm)
      · rcases List.mem_cons.1 hm with rfl | hm
        · exact h _ (by simp)
        · exact ih k v (fun kv hm => h kv (List.mem_cons_of_mem _ hm)) hv kv hm
  have hupd : ∀ (e d : Dict P Nat), (∀ kv ∈ d, pathOf docs kv.2 = some kv.1) → (∀ kv ∈ e, pathOf docs kv.2 = some kv.1) →
      ∀ kv ∈ d.update e, pathOf docs kv.2 = some kv.1 := by
    intro e
    induction e with
    | nil => intro d h _; exact h
    | cons a e ih =>
      intro d h he
      exact ih (d.set a.1 a.2) (hset d a.1 a.2 h (he a (by simp))) fun kv hm => he kv (List.mem_cons_of_mem _ hm)
  intro fuel
  induction fuel with
  | zero => intro x d h; simp [docsDict] at h
  | succ fuel ih =>
    intro x d h
    simp only [docsDict] at h
    split at h
    · simp at h
    · rename_i dx hdx
      have hloop : ∀ (l acc : Dict P Nat), (∀ kv ∈ acc, pathOf docs kv.2 = some kv.1) → dictLoop (docsDict docs fuel) acc l = some d →
          ∀ kv ∈ d, pathOf docs kv.2 = some kv.1 := by
        intro l
        induction l with
        | nil => intro acc hacc he; simp only [dictLoop, Option.some.injEq] at he; subst he; exact hacc
        | cons a l ihl =>
          intro acc hacc he
          simp only [dictLoop] at he
          split at he
          · rename_i e hrec
            exact ihl _ (hupd e acc hacc (ih _ _ hrec)) he
          · simp at he
      refine hloop dx.subs [(dx.path, x)] (fun kv hm => ?_) h
      rw [List.mem_singleton.1 hm]
      simp [pathOf, hdx]

end

end Verif.Documents
