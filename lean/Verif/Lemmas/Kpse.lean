import Verif.Spec.Kpse

namespace Verif.Kpse

open Verif Verif.Checkers

theorem starts_append (a b : List Event) : starts (a ++ b) = starts a ++ starts b := List.filterMap_append
theorem waits_append (a b : List Event) : waits (a ++ b) = waits a ++ waits b := List.filterMap_append

theorem starts_wait (l : List Nat) : starts (l.map .wait) = [] := by
  induction l with
  | nil => rfl
  | cons a l ih => exact ih

theorem waits_wait (l : List Nat) : waits (l.map .wait) = l := by
  induction l with
  | nil => rfl
  | cons a l ih => exact congrArg (a :: ·) ih

/-- Files with the numbers of their processes. -/
def numbered (ext : Str) (n : Nat) : List Str → List (Nat × Str)
  | [] => []
  | s :: l => (n, s ++ ext) :: numbered ext (n + 1) l

theorem numbered_append (ext : Str) (n : Nat) (a b : List Str) :
    numbered ext n (a ++ b) = numbered ext n a ++ numbered ext (n + a.length) b := by
  induction a generalizing n with
  | nil => rfl
  | cons s a ih =>
    simp only [List.cons_append, numbered, ih, List.length_cons]
    rw [show n + 1 + a.length = n + (a.length + 1) by omega]

theorem numbered_length (ext : Str) (n : Nat) (a : List Str) : (numbered ext n a).length = a.length := by
  induction a generalizing n with
  | nil => rfl
  | cons s a ih => simp only [numbered, List.length_cons, ih]

theorem shuffle {w o r s : List Nat} (t : List Nat) (h : (w ++ r).Perm s) : (w ++ ((o ++ r) ++ t)).Perm (o ++ (s ++ t)) := by
  rw [List.append_assoc]
  refine (List.perm_append_comm_assoc w o (r ++ t)).trans (List.Perm.append_left o ?_)
  rw [← List.append_assoc]
  exact List.Perm.append_right t h

mutual
theorem listing_starts (ext : Str) (n pos : Nat) (o : List Nat) (ds : List Dep) :
    (listing ext n pos o ds).2 = n + (allNames ds).length ∧ starts (listing ext n pos o ds).1 = numbered ext n (allNames ds) ∧
    (waits (listing ext n pos o ds).1).Perm (o ++ List.range' n (allNames ds).length) := by
  match ds with
  | [] => exact ⟨rfl, starts_wait o, by simp [listing, waits_wait, allNames]⟩
  | d :: ds =>
    obtain ⟨h1, h2, h3⟩ := item_starts ext n d
    have hr : List.range' n (allNames (d :: ds)).length =
        List.range' n (names d).length ++ List.range' (n + (names d).length) (allNames ds).length := by
      rw [allNames, List.length_append, ← List.range'_append_1]
    simp only [listing]
    split
    · obtain ⟨k1, k2, k3⟩ := listing_starts ext (item ext n d).2.1 0 [] ds
      refine ⟨?_, ?_, ?_⟩
      · rw [k1, h1, allNames, List.length_append]; omega
      · rw [starts_append, starts_append, starts_wait, List.nil_append, h2, k2, allNames, numbered_append, h1]
      · rw [waits_append, waits_append, waits_wait, hr]
        rw [h1] at k3
        rw [h1]
        refine ((List.Perm.append_left _ (List.Perm.append_left _ k3)).trans ?_)
        rw [List.nil_append]
        exact shuffle _ h3
    · obtain ⟨k1, k2, k3⟩ := listing_starts ext (item ext n d).2.1 (pos + 1) (o ++ (item ext n d).2.2) ds
      refine ⟨?_, ?_, ?_⟩
      · rw [k1, h1, allNames, List.length_append]; omega
      · rw [starts_append, h2, k2, allNames, numbered_append, h1]
      · rw [waits_append, hr]
        rw [h1] at k3
        rw [h1]
        refine ((List.Perm.append_left _ k3).trans ?_)
        exact shuffle _ h3
theorem item_starts (ext : Str) (n : Nat) (d : Dep) :
    (item ext n d).2.1 = n + (names d).length ∧ starts (item ext n d).1 = numbered ext n (names d) ∧
    (waits (item ext n d).1 ++ (item ext n d).2.2).Perm (List.range' n (names d).length) := by
  match d with
  | .prog name a => exact ⟨rfl, rfl, .refl _⟩
  | .group k c ds =>
    obtain ⟨k1, k2, k3⟩ := listing_starts ext n 0 [] ds
    refine ⟨k1, k2, ?_⟩
    simpa only [item, names, List.append_nil, List.nil_append] using k3
end

theorem prefix_append {p a b : List Event} (h : p <+: a ++ b) : p <+: a ∨ ∃ q, p = a ++ q ∧ q <+: b := by
  obtain ⟨t, h⟩ := h
  rcases List.append_eq_append_iff.mp h with ⟨u, rfl, rfl⟩ | ⟨u, rfl, rfl⟩
  · exact .inl ⟨u, rfl⟩
  · exact .inr ⟨u, rfl, t, rfl⟩

theorem item_opened (ext : Str) (n : Nat) (d : Dep) : (item ext n d).2.2.length ≤ 1 := by
  cases d <;> simp [item]

theorem item_balance (ext : Str) (n : Nat) (d : Dep) :
    (starts (item ext n d).1).length = (waits (item ext n d).1).length + (item ext n d).2.2.length := by
  obtain ⟨_, h2, h3⟩ := item_starts ext n d
  have := h3.length_eq
  rw [h2, numbered_length]
  simpa using this.symm

theorem waiting (o : List Nat) : ∀ p, p <+: o.map Event.wait → starts p = [] := by
  intro p hp
  obtain ⟨t, ht⟩ := hp
  have := congrArg starts ht
  rw [starts_append, starts_wait] at this
  exact (List.append_eq_nil_iff.mp this).1

mutual
theorem listing_atMost (ext : Str) (n pos : Nat) (o : List Nat) (ds : List Dep) (hp : pos ≤ 4) (ho : o.length ≤ pos) :
    ∀ p, p <+: (listing ext n pos o ds).1 → (starts p).length + o.length ≤ (waits p).length + (4 * allDepth ds + 5) := by
  match ds with
  | [] =>
    intro p h
    rw [waiting o p h]
    simp only [List.length_nil]
    omega
  | d :: ds =>
    have hd := item_atMost ext n d
    have hb := item_balance ext n d
    have h1 := item_opened ext n d
    have hm1 : depth d ≤ allDepth (d :: ds) := Nat.le_max_left ..
    have hm2 : allDepth ds ≤ allDepth (d :: ds) := Nat.le_max_right ..
    intro p h
    simp only [listing] at h
    split at h
    · rename_i hpos
      rcases prefix_append h with h | ⟨q, rfl, h'⟩
      · have := hd p h; omega
      · rcases prefix_append h' with hw | ⟨q, rfl, hq⟩
        · have := waiting _ q hw
          simp only [starts_append, waits_append, List.length_append, this, List.length_nil]
          omega
        · have := listing_atMost ext (item ext n d).2.1 0 [] ds (by omega) (by simp) q hq
          simp only [List.length_nil] at this
          simp only [starts_append, waits_append, List.length_append, starts_wait, waits_wait, List.length_nil]
          omega
    · rename_i hpos
      rcases prefix_append h with h | ⟨q, rfl, h'⟩
      · have := hd p h; omega
      · have := listing_atMost ext (item ext n d).2.1 (pos + 1) (o ++ (item ext n d).2.2) ds (by omega)
          (by rw [List.length_append]; omega) q h'
        rw [List.length_append] at this
        simp only [starts_append, waits_append, List.length_append]
        omega
theorem item_atMost (ext : Str) (n : Nat) (d : Dep) :
    ∀ p, p <+: (item ext n d).1 → (starts p).length ≤ (waits p).length + (4 * depth d + 1) := by
  match d with
  | .prog name a =>
    intro p h
    have hl := h.length_le
    have : (starts p).length ≤ p.length := List.length_filterMap_le ..
    simp only [item, List.length_singleton] at hl
    omega
  | .group k c ds =>
    intro p h
    have := listing_atMost ext n 0 [] ds (by omega) (by simp) p h
    simp only [List.length_nil] at this
    simp only [depth]
    omega
end

/-- Processes that are waited for were started before, or are among the given ones. -/
def Ordered (o : List Nat) (l : List Event) : Prop :=
  ∀ a i b, l = a ++ .wait i :: b → i ∈ o ∨ i ∈ (starts a).map Prod.fst

theorem ordered_wait (o : List Nat) : Ordered o (o.map .wait) := by
  intro a i b h
  have : (Event.wait i) ∈ o.map Event.wait := by rw [h]; simp
  obtain ⟨j, hj, e⟩ := List.mem_map.mp this
  cases e
  exact .inl hj

theorem ordered_append {o o' : List Nat} {x y : List Event} (hx : Ordered o x) (hy : Ordered o' y)
    (ho : ∀ i ∈ o', i ∈ o ∨ i ∈ (starts x).map Prod.fst) : Ordered o (x ++ y) := by
  intro a i b h
  rcases List.append_eq_append_iff.mp h with ⟨u, rfl, h2⟩ | ⟨u, h1, h2⟩
  · rcases hy u i b h2 with h | h
    · rcases ho i h with h | h
      · exact .inl h
      · exact .inr (by rw [starts_append, List.map_append]; exact List.mem_append_left _ h)
    · exact .inr (by rw [starts_append, List.map_append]; exact List.mem_append_right _ h)
  · cases u with
    | nil =>
      rw [List.append_nil] at h1
      subst h1
      rcases hy [] i b h2.symm with h | h
      · exact ho i h
      · cases h
    | cons e u =>
      cases h2
      exact hx a i u h1

mutual
theorem listing_ordered (ext : Str) (n pos : Nat) (o : List Nat) (ds : List Dep) : Ordered o (listing ext n pos o ds).1 := by
  match ds with
  | [] => exact ordered_wait o
  | d :: ds =>
    obtain ⟨h1, h2⟩ := item_ordered ext n d
    have ho : ∀ i ∈ o ++ (item ext n d).2.2, i ∈ o ∨ i ∈ (starts (item ext n d).1).map Prod.fst := by
      intro i hi
      rcases List.mem_append.mp hi with h | h
      · exact .inl h
      · exact .inr (h2 i h)
    have hx : Ordered o (item ext n d).1 := fun a i b h => (h1 a i b h).imp (fun h => by cases h) id
    simp only [listing]
    split
    · exact ordered_append hx (ordered_append (ordered_wait _) (listing_ordered ext _ 0 [] ds) (by nofun)) ho
    · exact ordered_append hx (listing_ordered ext _ (pos + 1) _ ds) ho
theorem item_ordered (ext : Str) (n : Nat) (d : Dep) :
    Ordered [] (item ext n d).1 ∧ ∀ i ∈ (item ext n d).2.2, i ∈ (starts (item ext n d).1).map Prod.fst := by
  match d with
  | .prog name a =>
    refine ⟨?_, by simp [item, starts]⟩
    intro x i y h
    have : Event.wait i ∈ (item ext n (.prog name a)).1 := by rw [h]; simp
    simp [item] at this
  | .group k c ds => exact ⟨listing_ordered ext n 0 [] ds, by nofun⟩
end

end Verif.Kpse
