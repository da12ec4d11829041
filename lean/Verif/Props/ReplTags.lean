import Verif.Spec.ReplTags

/-!
# C104: the replacement of tags by text
-/

namespace Verif.ReplTags

open Verif Verif.Tags

variable (isClass : Str → Bool) (rep : Str)

/-! ### Lemmas -/

theorem replItems_map (l : List Tree) : replItems isClass rep l = l.map (replTags isClass rep) := by
  induction l with
  | nil => rfl
  | cons x l ih => rw [replItems, ih]; rfl

theorem outside_cons (t : Tree) (i : Nat) (p : List Nat) (h : Outside isClass t (i :: p)) : ¬ Instance isClass t :=
  h [] List.nil_prefix (by simp) t (by cases t <;> rfl)

theorem outside_tag (c : Str) (x : Tree) (p : List Nat) (h : Outside isClass (.tag c x) (0 :: p)) : Outside isClass x p :=
  fun q h1 h2 y hy => h (0 :: q) (List.prefix_cons_inj 0 |>.mpr h1) (fun e => h2 (List.cons.inj e).2) y hy

theorem outside_list (l : List Tree) (x : Tree) (i : Nat) (hi : l[i]? = some x) (p : List Nat)
    (h : Outside isClass (.list l) (i :: p)) : Outside isClass x p :=
  fun q h1 h2 y hy => h (i :: q) (List.prefix_cons_inj i |>.mpr h1) (fun e => h2 (List.cons.inj e).2) y (by simp only [elemAt, hi]; exact hy)

theorem at_outside (p : List Nat) : ∀ t, Outside isClass t p → elemAt (replTags isClass rep t) p = (elemAt t p).map (replTags isClass rep) := by
  induction p with
  | nil => intro t _; cases t <;> simp [elemAt]
  | cons i p ih =>
    intro t h
    have hn := outside_cons isClass t i p h
    match t with
    | .str s => simp [replTags, elemAt]
    | .tag c x =>
      have hc : isClass c = false := by
        cases e : isClass c with
        | false => rfl
        | true => exact absurd e hn
      rw [replTags, hc, if_neg (by simp)]
      cases i with
      | zero => exact ih x (outside_tag isClass c x p h)
      | succ n => rfl
    | .list l =>
      rw [replTags, replItems_map]
      simp only [elemAt, List.getElem?_map]
      cases hi : l[i]? with
      | none => rfl
      | some x => exact ih x (outside_list isClass l x i hi p h)

theorem at_result (p : List Nat) : ∀ t y, elemAt (replTags isClass rep t) p = some y → Outside isClass t p := by
  induction p with
  | nil => intro t y _ q h1 h2; exact absurd (List.prefix_nil.mp h1) h2
  | cons i p ih =>
    intro t y hy q h1 h2 x hx
    match t with
    | .str s =>  simp [replTags, elemAt] at hy
    | .tag c z =>
      cases hc : isClass c with
      | true => rw [replTags, hc, if_pos rfl] at hy; simp [elemAt] at hy
      | false =>
        rw [replTags, hc, if_neg (by simp)] at hy
        cases q with
        | nil => simp only [elemAt, Option.some.injEq] at hx; subst hx; simp [Instance, hc]
        | cons j q =>
          obtain ⟨rfl, hq⟩ := List.cons_prefix_cons.mp h1
          cases j with
          | zero => exact ih z y hy q hq (fun e => h2 (e ▸ rfl)) x hx
          | succ n => simp [elemAt] at hx
    | .list l =>
      rw [replTags, replItems_map] at hy
      simp only [elemAt, List.getElem?_map] at hy
      cases q with
      | nil => simp only [elemAt, Option.some.injEq] at hx; subst hx; exact fun h => h
      | cons j q =>
        obtain ⟨rfl, hq⟩ := List.cons_prefix_cons.mp h1
        cases hi : l[j]? with
        | none => rw [hi] at hy; cases hy
        | some z =>
          rw [hi] at hy
          simp only [elemAt, hi] at hx
          exact ih z y hy q hq (fun e => h2 (e ▸ rfl)) x hx

/-! ### Theorems -/

/-- A tag of the class that is not inside another one is replaced by the text. -/
theorem C104_replaced (t : Tree) (p : List Nat) (ho : Outside isClass t p) (x : Tree) (hx : elemAt t p = some x)
    (hi : Instance isClass x) : elemAt (replTags isClass rep t) p = some (.str rep) := by
  rw [at_outside isClass rep p t ho, hx]
  match x with
  | .tag c z => rw [Option.map_some, replTags, if_pos (show isClass c = true from hi)]
  | .str s => cases hi
  | .list l => cases hi

/-- All other elements outside of these tags stay where they are: texts, tags with their classes and lists with their lengths. -/
theorem C104_kept (t : Tree) (p : List Nat) (ho : Outside isClass t p) (x : Tree) (hx : elemAt t p = some x)
    (hi : ¬ Instance isClass x) : ∃ y, elemAt (replTags isClass rep t) p = some y ∧ SameKind x y := by
  rw [at_outside isClass rep p t ho, hx]
  refine ⟨_, rfl, ?_⟩
  match x with
  | .tag c z => rw [replTags, if_neg (show ¬ isClass c = true from hi)]; rfl
  | .str s => rfl
  | .list l => rw [replTags, replItems_map]; exact (List.length_map ..).symm

/-- Nothing else is in the result: each of its places is a place before, outside of these tags, and there is no tag of the class. -/
theorem C104_result (t : Tree) (p : List Nat) (y : Tree) (hy : elemAt (replTags isClass rep t) p = some y) :
    ¬ Instance isClass y ∧ Outside isClass t p ∧ ∃ x, elemAt t p = some x := by
  have ho := at_result isClass rep p t y hy
  have e := at_outside isClass rep p t ho
  rw [hy] at e
  obtain ⟨x, hx, rfl⟩ := Option.map_eq_some_iff.mp e.symm
  refine ⟨?_, ho, x, hx⟩
  match x with
  | .tag c z =>
    rw [replTags]
    split
    · exact fun h => h
    · rename_i h; exact h
  | .str s => exact fun h => h
  | .list l => exact fun h => h

mutual
theorem repl_same (t : Tree) (h : ∀ p x, elemAt t p = some x → ¬ Instance isClass x) : replTags isClass rep t = t := by
  match t with
  | .str s => rfl
  | .tag c x =>
    have hc : ¬ isClass c = true := h [] _ rfl
    rw [replTags, if_neg hc, repl_same x fun p y hy => h (0 :: p) y hy]
  | .list l => rw [replTags, items_same l fun x hx p y hy => by
      obtain ⟨i, hi⟩ := List.getElem?_of_mem hx
      exact h (i :: p) y (by simp only [elemAt, hi]; exact hy)]
theorem items_same (l : List Tree) (h : ∀ x ∈ l, ∀ p y, elemAt x p = some y → ¬ Instance isClass y) : replItems isClass rep l = l := by
  match l with
  | [] => rfl
  | x :: l =>
    rw [replItems, repl_same x (h x (List.mem_cons_self ..)), items_same l fun y hy => h y (List.mem_cons_of_mem _ hy)]
end

/-- A tree without tags of the class is not changed. -/
theorem C104_none (t : Tree) (h : ∀ p x, elemAt t p = some x → ¬ Instance isClass x) : replTags isClass rep t = t :=
  repl_same isClass rep t h

/-- A second replacement changes nothing. -/
theorem C104_twice (t : Tree) (rep' : Str) : replTags isClass rep' (replTags isClass rep t) = replTags isClass rep t :=
  repl_same isClass rep' _ fun p y hy => (C104_result isClass rep t p y hy).1

/-! Two tags, one inside another: the outer one is replaced, and a tag in a tag of another class. -/

def sampleTree : Tree :=
  .tag ['p'] (.list [.str ['a'], .tag ['b'] (.tag ['b'] (.str ['c'])), .tag ['i'] (.tag ['b'] (.str ['d']))])

example : replTags (· = ['b']) ['-'] sampleTree = .tag ['p'] (.list [.str ['a'], .str ['-'], .tag ['i'] (.str ['-'])]) := by
  rfl

example : Outside (fun c => c = ['b']) sampleTree [0, 2, 0] ∧ elemAt sampleTree [0, 2, 0] = some (.tag ['b'] (.str ['d'])) :=
  ⟨at_result _ [] [0, 2, 0] sampleTree (.str []) rfl, rfl⟩

end Verif.ReplTags
