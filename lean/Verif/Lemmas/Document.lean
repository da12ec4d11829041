import Verif.Spec.Document
import Verif.Lemmas.Dict

/-!
# Lemmas for documents

The documents of a heap are described by a tree of their indices; what is created is compared with the unfolding of the
include graph.
-/

namespace Verif.Documents

open Verif Verif.Documents.Spec

variable {P : Type} [DecidableEq P]

inductive Tree (P A : Type)
  | node (a : A) (p : P) (subs : List (Tree P A))

namespace Tree

variable {A : Type}

def lab : Tree P A → A
  | node a _ _ => a

def path : Tree P A → P
  | node _ p _ => p

def subs : Tree P A → List (Tree P A)
  | node _ _ l => l

end Tree

/-- Append the new items. -/
def merge (a b : List P) : List P := b.foldl (fun a k => if k ∈ a then a else a ++ [k]) a

mutual
  def Tree.labs {A : Type} : Tree P A → List A
    | .node a _ l => a :: labsL l
  def labsL {A : Type} : List (Tree P A) → List A
    | [] => []
    | t :: l => t.labs ++ labsL l
end

mutual
  def Tree.pairs {A : Type} : Tree P A → List (P × A)
    | .node a p l => (p, a) :: pairsL l
  def pairsL {A : Type} : List (Tree P A) → List (P × A)
    | [] => []
    | t :: l => t.pairs ++ pairsL l
end

mutual
  def Tree.keys {A : Type} : Tree P A → List P
    | .node _ p l => keysL l [p]
  def keysL {A : Type} : List (Tree P A) → List P → List P
    | [], acc => acc
    | t :: l, acc => keysL l (merge acc t.keys)
end

mutual
  def Tree.erase {A : Type} : Tree P A → Tree P Unit
    | .node _ p l => .node () p (eraseL l)
  def eraseL {A : Type} : List (Tree P A) → List (Tree P Unit)
    | [] => []
    | t :: l => t.erase :: eraseL l
end

mutual
  def Tree.depth {A : Type} : Tree P A → Nat
    | .node _ _ l => depthL l + 1
  def depthL {A : Type} : List (Tree P A) → Nat
    | [] => 0
    | t :: l => max t.depth (depthL l)
end

/-- Set a subtree by its path. -/
def put {A : Type} : List (Tree P A) → Tree P A → List (Tree P A)
  | [], t => [t]
  | s :: l, t => if s.path = t.path then t :: l else s :: put l t

/-- The children as entries of a dict. -/
def entries {A : Type} (l : List (Tree P A)) : Dict P A := l.map fun t => (t.path, t.lab)

/-! ### Trees -/

section trees

variable {A : Type}

theorem erase_path (t : Tree P A) : t.erase.path = t.path := by cases t; rfl

mutual
  theorem keys_erase : ∀ t : Tree P A, t.erase.keys = t.keys
    | .node _ p l => by simp only [Tree.erase, Tree.keys]; exact keysL_erase l [p]
  theorem keysL_erase : ∀ (l : List (Tree P A)) (acc : List P), keysL (eraseL l) acc = keysL l acc
    | [], acc => rfl
    | t :: l, acc => by simp only [eraseL, keysL]; rw [keys_erase t]; exact keysL_erase l _
end

theorem eraseL_put (l : List (Tree P A)) (t : Tree P A) : eraseL (put l t) = put (eraseL l) t.erase := by
  induction l with
  | nil => rfl
  | cons s l ih =>
    simp only [put, eraseL, erase_path]
    split
    · rfl
    · simp only [eraseL, ih]

theorem entries_put (l : List (Tree P A)) (t : Tree P A) : entries (put l t) = (entries l).set t.path t.lab := by
  induction l with
  | nil => rfl
  | cons s l ih =>
    simp only [put, entries, List.map_cons, Dict.set]
    split
    · rename_i h; rw [List.map_cons, h]
    · rw [List.map_cons]; unfold entries at ih; rw [ih]

theorem mem_put (l : List (Tree P A)) (t s : Tree P A) (h : s ∈ put l t) : s = t ∨ s ∈ l := by
  induction l with
  | nil => simp [put] at h; exact Or.inl h
  | cons a l ih =>
    simp only [put] at h
    split at h
    · rcases List.mem_cons.1 h with h | h
      · exact Or.inl h
      · exact Or.inr (by simp [h])
    · rcases List.mem_cons.1 h with h | h
      · exact Or.inr (by simp [h])
      · rcases ih h with h | h
        · exact Or.inl h
        · exact Or.inr (by simp [h])

theorem mem_labsL (l : List (Tree P A)) (x : A) : x ∈ labsL l ↔ ∃ t ∈ l, x ∈ t.labs := by
  induction l with
  | nil => simp [labsL]
  | cons t l ih => simp [labsL, ih]

theorem labsL_put_nodup (l : List (Tree P A)) (t : Tree P A) (hl : (labsL l).Nodup) (ht : t.labs.Nodup)
    (hd : ∀ x ∈ t.labs, x ∉ labsL l) : (labsL (put l t)).Nodup := by
  induction l with
  | nil => simpa [put, labsL] using ht
  | cons s l ih =>
    simp only [labsL, List.nodup_append] at hl
    obtain ⟨h1, h2, h3⟩ := hl
    have hd' : ∀ x ∈ t.labs, x ∉ labsL l := fun x hx h => hd x hx (by simp [labsL, h])
    simp only [put]
    split
    · simp only [labsL, List.nodup_append]
      exact ⟨ht, h2, fun a ha b hb e => hd' a ha (e ▸ hb)⟩
    · simp only [labsL, List.nodup_append]
      refine ⟨h1, ih h2 hd', fun a ha b hb e => ?_⟩
      subst e
      obtain ⟨r, hr, hb'⟩ := (mem_labsL _ _).1 hb
      rcases mem_put _ _ _ hr with e | hr
      · rw [e] at hb'; exact hd a hb' (by simp [labsL, ha])
      · exact h3 a ha a ((mem_labsL _ _).2 ⟨r, hr, hb'⟩) rfl

mutual
  theorem depth_le : ∀ t : Tree P A, t.depth ≤ t.labs.length
    | .node _ _ l => by simp only [Tree.depth, Tree.labs, List.length_cons]; have := depthL_le l; omega
  theorem depthL_le : ∀ l : List (Tree P A), depthL l ≤ (labsL l).length
    | [] => Nat.le_refl _
    | t :: l => by
      simp only [depthL, labsL, List.length_append]
      have := depth_le t
      have := depthL_le l
      omega
end

theorem lab_mem (t : Tree P A) : t.lab ∈ t.labs := by cases t; simp [Tree.lab, Tree.labs]

/-- A list of distinct numbers below `n` has at most `n` elements. -/
theorem length_le_of_nodup : ∀ (n : Nat) (l : List Nat), l.Nodup → (∀ i ∈ l, i < n) → l.length ≤ n := by
  intro n
  induction n with
  | zero =>
    intro l _ h
    cases l with
    | nil => simp
    | cons a l => have := h a (by simp); omega
  | succ n ih =>
    intro l hn h
    have h1 := ih (l.erase n) (hn.erase n) (by
      intro i hi
      have h2 := (List.Nodup.mem_erase_iff hn).1 hi
      have := h i h2.2
      have := h2.1
      omega)
    rw [List.length_erase] at h1
    split at h1 <;> omega

theorem keys_update (d : Dict P A) (items : Dict P A) : (d.update items).keys = merge d.keys items.keys := by
  unfold merge Dict.update
  induction items generalizing d with
  | nil => rfl
  | cons kv items ih =>
    rw [List.foldl_cons, ih, Dict.keys_cons, List.foldl_cons, Dict.keys_set]

theorem mem_merge (a b : List P) (x : P) : x ∈ merge a b ↔ x ∈ a ∨ x ∈ b := by
  unfold merge
  induction b generalizing a with
  | nil => simp
  | cons k b ih =>
    rw [List.foldl_cons, ih]
    split
    · rename_i h
      constructor
      · rintro (h' | h') <;> simp [h']
      · rintro (h' | h')
        · exact Or.inl h'
        · rcases List.mem_cons.1 h' with rfl | h'
          · exact Or.inl h
          · exact Or.inr h'
    · simp only [List.mem_append, List.mem_singleton, List.mem_cons, or_assoc, List.not_mem_nil, false_or]

theorem merge_nodup (a b : List P) (h : a.Nodup) : (merge a b).Nodup := by
  unfold merge
  induction b generalizing a with
  | nil => exact h
  | cons k b ih =>
    rw [List.foldl_cons]
    apply ih
    split
    · exact h
    · rename_i hk
      rw [List.nodup_append]
      exact ⟨h, by simp, fun x hx y hy e => by simp at hy; subst e; subst hy; exact hk hx⟩

theorem merge_append (a b c : List P) : merge a (b ++ c) = merge (merge a b) c := by
  unfold merge; rw [List.foldl_append]

theorem merge_subset (a b : List P) (h : ∀ x ∈ b, x ∈ a) : merge a b = a := by
  unfold merge
  induction b with
  | nil => rfl
  | cons k b ih =>
    rw [List.foldl_cons, if_pos (h k (by simp))]
    exact ih fun x hx => h x (by simp [hx])

theorem merge_merge (a b c : List P) : merge a (merge b c) = merge (merge a b) c := by
  induction c generalizing b with
  | nil => rfl
  | cons k c ih =>
    have e : ∀ x : List P, merge x (k :: c) = merge (if k ∈ x then x else x ++ [k]) c := fun x => rfl
    rw [e b, e (merge a b), ih]
    congr 1
    by_cases hb : k ∈ b
    · rw [if_pos hb, if_pos ((mem_merge _ _ _).2 (Or.inr hb))]
    · rw [if_neg hb, merge_append]
      rfl

/-- The keys are the paths in order, each at its first occurrence. -/
theorem keysL_merge (l : List (Tree P A)) (acc acc' : List P) : merge acc (keysL l acc') = keysL l (merge acc acc') := by
  induction l generalizing acc' with
  | nil => rfl
  | cons t l ih => simp only [keysL]; rw [ih, merge_merge]

end trees

/-! ### Heaps -/

theorem modify_get (docs : List (Doc P)) (x i : Nat) (f : Doc P → Doc P) :
    (modify docs x f)[i]? = if i = x then (docs[x]?).map f else docs[i]? := by
  unfold modify
  cases h : docs[x]? with
  | none =>
    simp only [Option.map_none]
    split
    · rename_i e; rw [e, h]
    · rfl
  | some d =>
    simp only [Option.map_some]
    rw [List.getElem?_set]
    split
    · rename_i e
      subst e
      rw [if_pos rfl, if_pos (List.getElem?_eq_some_iff.1 h).1]
    · rename_i e
      rw [if_neg (Ne.symm e)]

theorem modify_length (docs : List (Doc P)) (x : Nat) (f : Doc P → Doc P) : (modify docs x f).length = docs.length := by
  unfold modify
  split
  · simp
  · rfl

variable (I : P → List P) (docs : List (Doc P))

mutual
  /-- The documents of a tree: all loaded, with these subdocuments, and with the includes `I`. -/
  def Rep : Tree P Nat → Option Nat → Prop
    | .node x p l, par => (∃ d, docs[x]? = some d ∧ d.path = p ∧ d.subs = entries l ∧ d.parent = par ∧ d.loaded = true ∧
        d.body = true ∧ d.includes = I p ∧ d.mtime.isSome) ∧ RepL l x
  def RepL : List (Tree P Nat) → Nat → Prop
    | [], _ => True
    | t :: l, x => Rep t (some x) ∧ RepL l x
end

theorem repL_iff (l : List (Tree P Nat)) (x : Nat) : RepL I docs l x ↔ ∀ t ∈ l, Rep I docs t (some x) := by
  induction l with
  | nil => simp [RepL]
  | cons t l ih => simp [RepL, ih]

/-- Only the times and texts have changed. -/
def Later (docs docs' : List (Doc P)) (S : List Nat) : Prop :=
  ∀ i ∈ S, ∀ d, docs[i]? = some d → d.mtime.isSome → ∃ m t, docs'[i]? = some { d with mtime := some m, text := t }

variable {I docs}

mutual
  theorem rep_later {docs' : List (Doc P)} : ∀ (t : Tree P Nat) (par : Option Nat), Rep I docs t par →
      Later docs docs' t.labs → Rep I docs' t par
    | .node x p l, par, h, hs => by
      simp only [Rep] at h ⊢
      obtain ⟨⟨d, h1, h2, h3, h4, h5, h6, h7, h8⟩, hl⟩ := h
      obtain ⟨m, _, hm⟩ := hs x (by simp [Tree.labs]) d h1 h8
      exact ⟨⟨_, hm, h2, h3, h4, h5, h6, h7, rfl⟩, repL_later l x hl fun i hi => hs i (by simp [Tree.labs, hi])⟩
  theorem repL_later {docs' : List (Doc P)} : ∀ (l : List (Tree P Nat)) (x : Nat), RepL I docs l x →
      Later docs docs' (labsL l) → RepL I docs' l x
    | [], _, _, _ => trivial
    | t :: l, x, h, hs => by
      simp only [RepL] at h ⊢
      exact ⟨rep_later t _ h.1 fun i hi => hs i (by simp [labsL, hi]), repL_later l x h.2 fun i hi => hs i (by simp [labsL, hi])⟩
end

theorem later_of_eq {docs docs' : List (Doc P)} {S : List Nat} (h : ∀ i ∈ S, docs'[i]? = docs[i]?) : Later docs docs' S := by
  intro i hi d hd hm
  obtain ⟨m, hm⟩ := Option.isSome_iff_exists.1 hm
  exact ⟨m, d.text, by rw [h i hi, hd, ← hm]⟩

mutual
  theorem rep_lt : ∀ (t : Tree P Nat) (par : Option Nat), Rep I docs t par → ∀ i ∈ t.labs, i < docs.length
    | .node x p l, par, h => by
      simp only [Rep] at h
      obtain ⟨⟨d, h1, _⟩, hl⟩ := h
      intro i hi
      rcases List.mem_cons.1 hi with rfl | hi
      · exact (List.getElem?_eq_some_iff.1 h1).1
      · exact repL_lt l x hl i hi
  theorem repL_lt : ∀ (l : List (Tree P Nat)) (x : Nat), RepL I docs l x → ∀ i ∈ labsL l, i < docs.length
    | [], _, _ => by intro i hi; simp [labsL] at hi
    | t :: l, x, h => by
      simp only [RepL] at h
      intro i hi
      simp only [labsL, List.mem_append] at hi
      rcases hi with hi | hi
      · exact rep_lt t _ h.1 i hi
      · exact repL_lt l x h.2 i hi
end

theorem rep_get (t : Tree P Nat) (par : Option Nat) (h : Rep I docs t par) :
    ∃ d, docs[t.lab]? = some d ∧ d.path = t.path ∧ d.subs = entries t.subs ∧ d.parent = par ∧ d.loaded = true ∧
        d.body = true ∧ d.includes = I t.path ∧ d.mtime.isSome := by
  cases t with
  | node x p l => simp only [Rep] at h; exact h.1

/-! ### `documents_dict` -/

mutual
  theorem docsDict_rep : ∀ (t : Tree P Nat) (par : Option Nat) (fuel : Nat), Rep I docs t par → t.depth ≤ fuel →
      ∃ d, docsDict docs fuel t.lab = some d ∧ d.keys = t.keys ∧ ((t.pairs.map (·.1)).Nodup → d = t.pairs)
    | .node x p l, par, 0, _, h => by simp [Tree.depth] at h
    | .node x p l, par, fuel + 1, hr, h => by
      simp only [Rep] at hr
      obtain ⟨⟨d, h1, h2, h3, _⟩, hl⟩ := hr
      simp only [Tree.depth] at h
      obtain ⟨r, hr1, hr2, hr3⟩ := dictLoop_rep l x fuel [(p, x)] hl (by omega)
      refine ⟨r, ?_, ?_, ?_⟩
      · simp only [docsDict, Tree.lab, h1, h2, h3]; exact hr1
      · simp only [Tree.keys]; exact hr2
      · intro hn
        simp only [Tree.pairs, List.map_cons] at hn ⊢
        exact hr3 (by simpa using hn)
  theorem dictLoop_rep : ∀ (l : List (Tree P Nat)) (x fuel : Nat) (acc : Dict P Nat), RepL I docs l x → depthL l ≤ fuel →
      ∃ d, dictLoop (docsDict docs fuel) acc (entries l) = some d ∧ d.keys = keysL l acc.keys ∧
        (((acc ++ pairsL l).map (·.1)).Nodup → d = acc ++ pairsL l)
    | [], _, _, acc, _, _ => ⟨acc, rfl, rfl, fun _ => by simp [pairsL]⟩
    | t :: l, x, fuel, acc, hl, h => by
      simp only [RepL] at hl
      simp only [depthL] at h
      obtain ⟨d, h1, h2, h3⟩ := docsDict_rep t (some x) fuel hl.1 (by omega)
      obtain ⟨r, hr1, hr2, hr3⟩ := dictLoop_rep l x fuel (acc.update d) hl.2 (by omega)
      refine ⟨r, ?_, ?_, ?_⟩
      · simp only [entries, List.map_cons, dictLoop, h1]; exact hr1
      · rw [hr2, keys_update, h2]; rfl
      · intro hn
        have e : acc.update d = acc ++ t.pairs := by
          have hn2 : (t.pairs.map (·.1)).Nodup := by
            simp only [pairsL, List.map_append, List.nodup_append] at hn
            exact hn.2.1.1
          rw [h3 hn2, Dict.update_append_new]
          simp only [pairsL, ← List.append_assoc] at hn
          rw [List.map_append, List.nodup_append] at hn
          have := hn.1
          rw [List.map_append] at this
          exact this
        rw [hr3 (by rw [e]; simpa [pairsL] using hn), e]
        simp [pairsL]
end

theorem documentsDict_rep (t : Tree P Nat) (par : Option Nat) (h : Rep I docs t par) (hn : t.labs.Nodup) :
    ∃ d, documentsDict docs t.lab = some d ∧ d.keys = t.keys ∧ ((t.pairs.map (·.1)).Nodup → d = t.pairs) := by
  apply docsDict_rep t par _ h
  have h1 := depth_le t
  have h2 := length_le_of_nodup docs.length t.labs hn (rep_lt t par h)
  omega

/-! ### `_update_mtime` -/

/-- A later time. -/
def raise (m : Nat) (d : Doc P) : Doc P := { d with mtime := d.mtime.map (max m) }

/-- The times of some documents are raised. -/
def Raised (m : Nat) (docs docs' : List (Doc P)) (S : List Nat) : Prop :=
  ∀ i, docs'[i]? = if i ∈ S then (docs[i]?).map (raise m) else docs[i]?

theorem Raised.later {m : Nat} {docs docs' : List (Doc P)} {S T : List Nat} (h : Raised m docs docs' S) : Later docs docs' T := by
  intro i _ d hd hm
  obtain ⟨v, hv⟩ := Option.isSome_iff_exists.1 hm
  rw [h i, hd]
  split
  · exact ⟨max m v, d.text, by simp [raise, hv]⟩
  · exact ⟨v, d.text, by rw [← hv]⟩

theorem Raised.append {m : Nat} {a b c : List (Doc P)} {S T : List Nat} (h1 : Raised m a b S) (h2 : Raised m b c T)
    (hd : ∀ i ∈ S, i ∉ T) : Raised m a c (S ++ T) := by
  intro i
  rw [h2 i, h1 i]
  by_cases hs : i ∈ S
  · simp [hs, hd i hs]
  · by_cases ht : i ∈ T
    · simp [hs, ht]
    · simp [hs, ht]

mutual
  theorem updateMtime_rep : ∀ (t : Tree P Nat) (par : Option Nat) (fuel m : Nat) (docs : List (Doc P)), Rep I docs t par →
      t.labs.Nodup → t.depth ≤ fuel → Raised m docs (updateMtime fuel (some m) docs t.lab) t.labs
    | .node x p l, par, 0, _, _, _, _, h => by simp [Tree.depth] at h
    | .node x p l, par, fuel + 1, m, docs, hr, hn, h => by
      have hr' := hr
      simp only [Rep] at hr
      obtain ⟨⟨d, h1, h2, h3, h4, h5, h6, h7, h8⟩, hl⟩ := hr
      obtain ⟨old, hold⟩ := Option.isSome_iff_exists.1 h8
      simp only [Tree.depth] at h
      simp only [Tree.labs, List.nodup_cons] at hn
      have hu : ∃ docs1, updateMtime (fuel + 1) (some m) docs x = (entries l).foldl (fun docs kv => updateMtime fuel (some m) docs kv.2) docs1 ∧
          Raised m docs docs1 [x] := by
        refine ⟨if m > old then modify docs x (fun d => { d with mtime := some m }) else docs, by simp only [updateMtime, h1, hold, h3], ?_⟩
        intro i
        split
        · rename_i hgt
          rw [modify_get]
          simp only [List.mem_singleton]
          split
          · rename_i e
            subst e
            rw [h1]
            simp only [Option.map_some, raise, hold]
            rw [Nat.max_eq_left (by omega)]
          · rfl
        · simp only [List.mem_singleton]
          split
          · rename_i e
            subst e
            rw [h1]
            simp only [Option.map_some, raise, hold]
            rw [Nat.max_eq_right (by omega), ← hold]
          · rfl
      obtain ⟨docs1, e, hu⟩ := hu
      have := updateMtimeL_rep l x fuel m docs1 (repL_later l x hl hu.later) hn.2 (by omega)
      simp only [Tree.lab, Tree.labs]
      rw [e]
      exact hu.append this (by intro i hi; simp at hi; subst hi; exact hn.1)
  theorem updateMtimeL_rep : ∀ (l : List (Tree P Nat)) (x fuel m : Nat) (docs : List (Doc P)), RepL I docs l x →
      (labsL l).Nodup → depthL l ≤ fuel →
      Raised m docs ((entries l).foldl (fun docs kv => updateMtime fuel (some m) docs kv.2) docs) (labsL l)
    | [], _, _, _, _, _, _, _ => by intro i; simp [labsL, entries]
    | t :: l, x, fuel, m, docs, hr, hn, h => by
      simp only [RepL] at hr
      simp only [depthL] at h
      simp only [labsL, List.nodup_append] at hn
      have h1 := updateMtime_rep t (some x) fuel m docs hr.1 hn.1 (by omega)
      have h2 := updateMtimeL_rep l x fuel m _ (repL_later l x hr.2 h1.later) hn.2.1 (by omega)
      simp only [entries, List.map_cons, List.foldl_cons, labsL]
      exact h1.append h2 fun i hi hi' => hn.2.2 i hi i hi' rfl
end

end Verif.Documents
