import Verif.Spec.ContextTree
import Verif.Lemmas.Dict

set_option linter.unusedSimpArgs false
set_option linter.unusedVariables false

namespace Verif.Context

open Verif Verif.Context.Spec

theorem lookup_eq (d : List (Str × Tree)) (k : Str) : lookup d k = Dict.get? d k := by
  induction d with
  | nil => rfl
  | cons kt d ih =>
    obtain ⟨k', t⟩ := kt
    simp only [lookup, List.find?_cons, Dict.get?] at ih ⊢
    by_cases h : k' = k
    · simp [h]
    · simp [h, ih]

theorem set_same {α : Type} (d : Dict Str α) (k : Str) (v : α) (h : d.get? k = some v) : d.set k v = d := by
  induction d with
  | nil => simp at h
  | cons kv d ih =>
    obtain ⟨k', v'⟩ := kv
    simp only [Dict.get?, Dict.set] at h ⊢
    by_cases hk : k' = k
    · simp [hk] at h ⊢; exact h.symm
    · simp [hk] at h ⊢; exact ih h

/-! ### Frames -/

mutual
theorem reads_frame (h h' : Heap) : ∀ (t : Tree) (v : Value) (fp : List Nat), Reads h t v fp → (∀ a ∈ fp, h'[a]? = h[a]?) → Reads h' t v fp
  | .atom a, v, fp => fun hr _ => hr
  | .list ts, v, fp => by
    rintro ⟨o, l, fp', rfl, e, rfl, hr⟩ ha
    exact ⟨o, l, fp', rfl, by rw [ha o (by simp), e], rfl, readsAll_frame h h' ts l fp' hr fun a h => ha a (by simp [h])⟩
  | .set as, v, fp => by
    rintro ⟨o, rfl, e, rfl⟩ ha
    exact ⟨o, rfl, by rw [ha o (by simp), e], rfl⟩
  | .dict ts, v, fp => by
    rintro ⟨o, d, fp', rfl, e, rfl, hn, hr⟩ ha
    exact ⟨o, d, fp', rfl, by rw [ha o (by simp), e], rfl, hn, readsDict_frame h h' ts d fp' hr fun a h => ha a (by simp [h])⟩

theorem readsAll_frame (h h' : Heap) : ∀ (ts : List Tree) (l : List Value) (fp : List Nat), ReadsAll h ts l fp →
    (∀ a ∈ fp, h'[a]? = h[a]?) → ReadsAll h' ts l fp
  | [], l, fp => fun hr _ => hr
  | t :: ts, l, fp => by
    rintro ⟨v, l', fp1, fp2, rfl, rfl, h1, h2⟩ ha
    exact ⟨v, l', fp1, fp2, rfl, rfl, reads_frame h h' t v fp1 h1 fun a h => ha a (by simp [h]),
      readsAll_frame h h' ts l' fp2 h2 fun a h => ha a (by simp [h])⟩

theorem readsDict_frame (h h' : Heap) : ∀ (ts : List (Str × Tree)) (d : List (Str × Value)) (fp : List Nat), ReadsDict h ts d fp →
    (∀ a ∈ fp, h'[a]? = h[a]?) → ReadsDict h' ts d fp
  | [], d, fp => fun hr _ => hr
  | (k, t) :: ts, d, fp => by
    rintro ⟨v, d', fp1, fp2, rfl, rfl, h1, h2⟩ ha
    exact ⟨v, d', fp1, fp2, rfl, rfl, reads_frame h h' t v fp1 h1 fun a h => ha a (by simp [h]),
      readsDict_frame h h' ts d' fp2 h2 fun a h => ha a (by simp [h])⟩
end

mutual
theorem reads_bound (h : Heap) : ∀ (t : Tree) (v : Value) (fp : List Nat), Reads h t v fp → ∀ a ∈ fp, a < h.length
  | .atom a, v, fp => by rintro ⟨_, rfl⟩; simp
  | .list ts, v, fp => by
    rintro ⟨o, l, fp', rfl, e, rfl, hr⟩ a ha
    rcases List.mem_cons.1 ha with rfl | ha
    · exact (List.getElem?_eq_some_iff.1 e).1
    · exact readsAll_bound h ts l fp' hr a ha
  | .set as, v, fp => by
    rintro ⟨o, rfl, e, rfl⟩ a ha
    simp at ha; subst ha
    exact (List.getElem?_eq_some_iff.1 e).1
  | .dict ts, v, fp => by
    rintro ⟨o, d, fp', rfl, e, rfl, hn, hr⟩ a ha
    rcases List.mem_cons.1 ha with rfl | ha
    · exact (List.getElem?_eq_some_iff.1 e).1
    · exact readsDict_bound h ts d fp' hr a ha

theorem readsAll_bound (h : Heap) : ∀ (ts : List Tree) (l : List Value) (fp : List Nat), ReadsAll h ts l fp → ∀ a ∈ fp, a < h.length
  | [], l, fp => by rintro ⟨_, rfl⟩; simp
  | t :: ts, l, fp => by
    rintro ⟨v, l', fp1, fp2, rfl, rfl, h1, h2⟩ a ha
    rcases List.mem_append.1 ha with ha | ha
    · exact reads_bound h t v fp1 h1 a ha
    · exact readsAll_bound h ts l' fp2 h2 a ha

theorem readsDict_bound (h : Heap) : ∀ (ts : List (Str × Tree)) (d : List (Str × Value)) (fp : List Nat), ReadsDict h ts d fp →
    ∀ a ∈ fp, a < h.length
  | [], d, fp => by rintro ⟨_, rfl⟩; simp
  | (k, t) :: ts, d, fp => by
    rintro ⟨v, d', fp1, fp2, rfl, rfl, h1, h2⟩ a ha
    rcases List.mem_append.1 ha with ha | ha
    · exact reads_bound h t v fp1 h1 a ha
    · exact readsDict_bound h ts d' fp2 h2 a ha
end

/-! ### Lists -/

theorem readsAll_append (h : Heap) (ts us : List Tree) (l m : List Value) (fp fq : List Nat) (h1 : ReadsAll h ts l fp) (h2 : ReadsAll h us m fq) :
    ReadsAll h (ts ++ us) (l ++ m) (fp ++ fq) := by
  induction ts generalizing l fp with
  | nil => obtain ⟨rfl, rfl⟩ := h1; exact h2
  | cons t ts ih =>
    obtain ⟨v, l', fp1, fp2, rfl, rfl, h3, h4⟩ := h1
    exact ⟨v, l' ++ m, fp1, fp2 ++ fq, rfl, by simp, h3, ih l' fp2 h4⟩

theorem readsAll_atoms (h : Heap) (as : List Atom) : ReadsAll h (as.map .atom) (as.map .atom) [] := by
  induction as with
  | nil => exact ⟨rfl, rfl⟩
  | cons a as ih => exact ⟨.atom a, as.map .atom, [], [], rfl, rfl, ⟨rfl, rfl⟩, ih⟩

theorem map_atom_eq {α : Type} (l : List α) (f : α → Atom) :
    (l.map fun x => Tree.atom (f x)) = (l.map f).map .atom ∧ (l.map fun x => Value.atom (f x)) = (l.map f).map .atom := by
  simp [List.map_map, Function.comp_def]

/-! ### Dicts -/

theorem readsDict_keys (h : Heap) (ts : List (Str × Tree)) (d : List (Str × Value)) (fp : List Nat) (hr : ReadsDict h ts d fp) :
    d.map Prod.fst = ts.map Prod.fst := by
  induction ts generalizing d fp with
  | nil => obtain ⟨rfl, _⟩ := hr; rfl
  | cons kt ts ih =>
    obtain ⟨k, t⟩ := kt
    obtain ⟨v, d', fp1, fp2, rfl, rfl, h1, h2⟩ := hr
    simp [ih d' fp2 h2]

/-- The entry of a key, what is beside it, and its replacement. -/
theorem readsDict_split (h : Heap) (ts : List (Str × Tree)) (d : Dict Str Value) (fp : List Nat) (hr : ReadsDict h ts d fp)
    (k : Str) (v : Value) (hk : d.get? k = some v) :
    ∃ A B fk t, fp = A ++ (fk ++ B) ∧ Dict.get? ts k = some t ∧ Reads h t v fk ∧
      ∀ h' v' t' fk', Reads h' t' v' fk' → (∀ a ∈ A ++ B, h'[a]? = h[a]?) →
        ReadsDict h' (Dict.set ts k t') (d.set k v') (A ++ (fk' ++ B)) := by
  induction ts generalizing d fp with
  | nil => obtain ⟨rfl, _⟩ := hr; simp at hk
  | cons kt ts ih =>
    obtain ⟨k', t⟩ := kt
    obtain ⟨v0, d', fp1, fp2, rfl, rfl, h1, h2⟩ := hr
    by_cases he : k' = k
    · subst he
      simp only [Dict.get?, if_true, Option.some.injEq] at hk
      subst hk
      refine ⟨[], fp2, fp1, t, rfl, by simp [Dict.get?], h1, ?_⟩
      intro h' v' t' fk' hv' hfr
      simp only [Dict.set, if_true]
      exact ⟨v', d', fk', fp2, rfl, rfl, hv', readsDict_frame h h' ts d' fp2 h2 fun a ha => hfr a (by simp [ha])⟩
    · simp only [Dict.get?, he, if_false] at hk
      obtain ⟨A, B, fk, t1, rfl, e2, e3, e4⟩ := ih d' fp2 h2 hk
      refine ⟨fp1 ++ A, B, fk, t1, by simp, by simp [Dict.get?, he, e2], e3, ?_⟩
      intro h' v' t' fk' hv' hfr
      simp only [Dict.set, he, if_false]
      refine ⟨v0, Dict.set d' k v', fp1, A ++ (fk' ++ B), rfl, by simp, reads_frame h h' t v0 fp1 h1 fun a ha => hfr a (by simp [ha]), ?_⟩
      exact e4 h' v' t' fk' hv' fun a ha => hfr a (by simp at ha ⊢; rcases ha with ha | ha <;> simp [ha])

/-- A new entry. -/
theorem readsDict_new (h : Heap) (ts : List (Str × Tree)) (d : Dict Str Value) (fp : List Nat) (hr : ReadsDict h ts d fp)
    (k : Str) (hk : d.get? k = none) :
    Dict.get? ts k = none ∧ ∀ h' v' t' fk', Reads h' t' v' fk' → (∀ a ∈ fp, h'[a]? = h[a]?) →
        ReadsDict h' (Dict.set ts k t') (d.set k v') (fp ++ fk') := by
  induction ts generalizing d fp with
  | nil =>
    obtain ⟨rfl, rfl⟩ := hr
    refine ⟨rfl, ?_⟩
    intro h' v' t' fk' hv' _
    exact ⟨v', [], fk', [], rfl, by simp, hv', rfl, rfl⟩
  | cons kt ts ih =>
    obtain ⟨k', t⟩ := kt
    obtain ⟨v0, d', fp1, fp2, rfl, rfl, h1, h2⟩ := hr
    by_cases he : k' = k
    · simp [Dict.get?, he] at hk
    · simp only [Dict.get?, he, if_false] at hk
      obtain ⟨e1, e2⟩ := ih d' fp2 h2 hk
      refine ⟨by simp [Dict.get?, he, e1], ?_⟩
      intro h' v' t' fk' hv' hfr
      simp only [Dict.set, he, if_false]
      exact ⟨v0, Dict.set d' k v', fp1, fp2 ++ fk', rfl, by simp, reads_frame h h' t v0 fp1 h1 fun a ha => hfr a (by simp [ha]),
        e2 h' v' t' fk' hv' fun a ha => hfr a (by simp [ha])⟩

/-- The changes, with the objects of each one: they are trees that share nothing. -/
structure Chgs (h : Heap) (changes : Dict Str Value) (G : List (Str × Tree)) (φ : Str → List Nat) : Prop where
  none : ∀ k, changes.get? k = none → Dict.get? G k = none
  reads : ∀ k v, changes.get? k = some v → ∃ t, Dict.get? G k = some t ∧ Reads h t v (φ k)
  nodup : ∀ k, (φ k).Nodup
  disj : ∀ k k', k ≠ k' → ∀ a ∈ φ k, a ∉ φ k'

theorem chgs_of_reads (h : Heap) (G : List (Str × Tree)) (d : Dict Str Value) (fp : List Nat) (hr : ReadsDict h G d fp)
    (hn : fp.Nodup) : ∃ φ, Chgs h d G φ ∧ ∀ k, ∀ a ∈ φ k, a ∈ fp := by
  induction G generalizing d fp with
  | nil =>
    obtain ⟨rfl, rfl⟩ := hr
    exact ⟨fun _ => [], ⟨by simp, by simp, by simp, by simp⟩, by simp⟩
  | cons kt ts ih =>
    obtain ⟨k0, t⟩ := kt
    obtain ⟨v0, d', fp1, fp2, rfl, rfl, h1, h2⟩ := hr
    rw [List.nodup_append] at hn
    obtain ⟨φ, hφ, hs⟩ := ih d' fp2 h2 hn.2.1
    refine ⟨fun k => if k = k0 then fp1 else φ k, ⟨?_, ?_, ?_, ?_⟩, ?_⟩
    · intro k hk
      by_cases he : k0 = k
      · simp [Dict.get?, he] at hk
      · simp only [Dict.get?, he, if_false] at hk ⊢; exact hφ.none k hk
    · intro k v hk
      by_cases he : k0 = k
      · subst he; simp only [Dict.get?, if_true, Option.some.injEq] at hk ⊢; subst hk; exact ⟨t, rfl, h1⟩
      · simp only [Dict.get?, he, if_false] at hk ⊢
        rw [if_neg (Ne.symm he)]
        exact hφ.reads k v hk
    · intro k
      by_cases he : k = k0
      · simp [he, hn.1]
      · simp [he, hφ.nodup k]
    · intro k k' hne a ha
      by_cases he : k = k0
      · by_cases he' : k' = k0
        · exact absurd (he.trans he'.symm) hne
        · simp only [he, if_true] at ha
          simp only [he', if_false]
          intro hm
          exact hn.2.2 a ha a (hs k' a hm) rfl
      · by_cases he' : k' = k0
        · simp only [he, if_false] at ha
          simp only [he', if_true]
          intro hm
          exact hn.2.2 a hm a (hs k a ha) rfl
        · simp only [he, if_false] at ha
          simp only [he', if_false]
          exact hφ.disj k k' hne a ha
    · intro k a ha
      by_cases he : k = k0
      · simp only [he, if_true] at ha; simp [ha]
      · simp only [he, if_false] at ha; simp [hs k a ha]

theorem Chgs.frame {h h' : Heap} {changes : Dict Str Value} {G : List (Str × Tree)} {φ : Str → List Nat} (hc : Chgs h changes G φ)
    (K : Str → Prop) (hK : ∀ k, K k → ∀ a ∈ φ k, h'[a]? = h[a]?) :
    ∀ k v, K k → changes.get? k = some v → ∃ t, Dict.get? G k = some t ∧ Reads h' t v (φ k) := by
  intro k v hk hv
  obtain ⟨t, h1, h2⟩ := hc.reads k v hv
  exact ⟨t, h1, reads_frame h h' t v _ h2 (hK k hk)⟩

end Verif.Context
