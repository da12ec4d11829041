import Verif.Spec.TagEq
import Verif.Lemmas.Dict
import Mathlib.Data.List.Perm.Subperm

/-!
# C107: equality of tags
-/

namespace Verif.TagEq

open Verif Verif.TagEq.Spec

/-! ### Lemmas -/

theorem dictEq_iff (a b : Dict Str Str) (ha : a.keys.Nodup) (hb : b.keys.Nodup) :
    dictEq a b = true ↔ ∀ k, a.get? k = b.get? k := by
  have len : ∀ d : Dict Str Str, d.keys.length = d.length := fun d => by simp [Dict.keys]
  unfold dictEq
  simp only [Bool.and_eq_true, beq_iff_eq, List.all_eq_true]
  constructor
  · rintro ⟨hl, h⟩ k
    have hsub : a.keys ⊆ b.keys := by
      intro x hx
      rw [← Dict.get?_isSome_iff] at hx ⊢
      obtain ⟨v, hv⟩ := Option.isSome_iff_exists.mp hx
      rw [h _ (Dict.mem_of_get? _ _ _ hv)]; rfl
    have hp : a.keys.Perm b.keys := (List.subperm_of_subset ha hsub).perm_of_length_le (by rw [len, len]; omega)
    cases hk : a.get? k with
    | some v => exact (h _ (Dict.mem_of_get? _ _ _ hk)).symm
    | none =>
      symm
      rw [Dict.get?_eq_none_iff] at hk ⊢
      exact fun hm => hk (hp.mem_iff.mpr hm)
  · intro h
    constructor
    · have : a.keys.Perm b.keys := by
        rw [List.perm_ext_iff_of_nodup ha hb]
        intro x
        rw [← Dict.get?_isSome_iff, ← Dict.get?_isSome_iff, h]
      have := this.length_eq
      rw [len, len] at this; exact this
    · rintro ⟨k, v⟩ hm
      rw [← h]; exact Dict.get?_of_mem _ ha _ _ hm

theorem readCtx_iff (gone : Nat → Bool) (c c' : Nat) :
    readCtx gone c = readCtx gone c' ↔ c = c' ∨ gone c = true ∧ gone c' = true := by
  unfold readCtx
  constructor
  · intro h
    split at h
    · split at h
      · right; constructor <;> assumption
      · cases h
    · split at h
      · cases h
      · left; exact Option.some.inj h
  · rintro (rfl | ⟨h, h'⟩)
    · rfl
    · rw [if_pos h, if_pos h']

mutual
theorem eqv_iff (gone : Nat → Bool) : ∀ a b : Node, Dicts a → Dicts b → (eqv gone a b = true ↔ Same gone a b)
  | .none, .none, _, _ => ⟨fun _ => .none, fun _ => by simp [eqv]⟩
  | .none, .str _, _, _ => ⟨fun h => (by simp [eqv] at h), fun h => nomatch h⟩
  | .none, .list _, _, _ => ⟨fun h => (by simp [eqv] at h), fun h => nomatch h⟩
  | .none, .tag .., _, _ => ⟨fun h => (by simp [eqv] at h), fun h => nomatch h⟩
  | .str _, .none, _, _ => ⟨fun h => (by simp [eqv] at h), fun h => nomatch h⟩
  | .str _, .list _, _, _ => ⟨fun h => (by simp [eqv] at h), fun h => nomatch h⟩
  | .str _, .tag .., _, _ => ⟨fun h => (by simp [eqv] at h), fun h => nomatch h⟩
  | .list _, .none, _, _ => ⟨fun h => (by simp [eqv] at h), fun h => nomatch h⟩
  | .list _, .str _, _, _ => ⟨fun h => (by simp [eqv] at h), fun h => nomatch h⟩
  | .list _, .tag .., _, _ => ⟨fun h => (by simp [eqv] at h), fun h => nomatch h⟩
  | .tag .., .none, _, _ => ⟨fun h => (by simp [eqv] at h), fun h => nomatch h⟩
  | .tag .., .str _, _, _ => ⟨fun h => (by simp [eqv] at h), fun h => nomatch h⟩
  | .tag .., .list _, _, _ => ⟨fun h => (by simp [eqv] at h), fun h => nomatch h⟩
  | .str s, .str s', _, _ => by
    constructor
    · intro h
      have : s = s' := by simpa [eqv] using h
      subst this; exact .str s
    · intro h; cases h; simp [eqv]
  | .list l, .list l', ha, hb => by
    have ih := eqvs_iff gone l l' (by simpa [Dicts] using ha) (by simpa [Dicts] using hb)
    constructor
    · intro h; exact .list (ih.mp (by simpa [eqv] using h))
    · intro h; cases h with | list h => simpa [eqv] using ih.mpr h
  | .tag cls name attrs content ctx, .tag cls' name' attrs' content' ctx', ha, hb => by
    simp only [Dicts] at ha hb
    have ih := eqv_iff gone content content' ha.2 hb.2
    have hd := dictEq_iff attrs attrs' ha.1 hb.1
    have hc := readCtx_iff gone ctx ctx'
    simp only [eqv, Bool.and_eq_true, beq_iff_eq]
    constructor
    · rintro ⟨⟨⟨⟨rfl, rfl⟩, h3⟩, h4⟩, h5⟩
      exact .tag _ _ (hd.mp h3) (ih.mp h4) (hc.mp h5)
    · intro h
      cases h with
      | tag _ _ h3 h4 h5 => exact ⟨⟨⟨⟨rfl, rfl⟩, hd.mpr h3⟩, ih.mpr h4⟩, hc.mpr h5⟩
theorem eqvs_iff (gone : Nat → Bool) : ∀ a b : Nodes, AllDicts a → AllDicts b → (eqvs gone a b = true ↔ Sames gone a b)
  | .nil, .nil, _, _ => ⟨fun _ => .nil, fun _ => by simp [eqvs]⟩
  | .nil, .cons _ _, _, _ => ⟨fun h => (by simp [eqvs] at h), fun h => nomatch h⟩
  | .cons _ _, .nil, _, _ => ⟨fun h => (by simp [eqvs] at h), fun h => nomatch h⟩
  | .cons a l, .cons a' l', ha, hb => by
    simp only [AllDicts] at ha hb
    have h1 := eqv_iff gone a a' ha.1 hb.1
    have h2 := eqvs_iff gone l l' ha.2 hb.2
    simp only [eqvs, Bool.and_eq_true]
    constructor
    · rintro ⟨x, y⟩; exact .cons (h1.mp x) (h2.mp y)
    · intro h; cases h with | cons x y => exact ⟨h1.mpr x, h2.mpr y⟩
end

mutual
theorem same_refl (gone : Nat → Bool) : ∀ a : Node, Same gone a a
  | .none => .none
  | .str s => .str s
  | .list l => .list (sames_refl gone l)
  | .tag _ _ _ content _ => .tag _ _ (fun _ => rfl) (same_refl gone content) (.inl rfl)
theorem sames_refl (gone : Nat → Bool) : ∀ a : Nodes, Sames gone a a
  | .nil => .nil
  | .cons a l => .cons (same_refl gone a) (sames_refl gone l)
end

mutual
theorem same_symm (gone : Nat → Bool) : ∀ a b : Node, Same gone a b → Same gone b a
  | _, _, .none => .none
  | _, _, .str s => .str s
  | _, _, .list h => .list (sames_symm gone _ _ h)
  | _, _, .tag c n h h' h'' => .tag c n (fun k => (h k).symm) (same_symm gone _ _ h')
      (h''.elim (fun e => .inl e.symm) fun e => .inr ⟨e.2, e.1⟩)
theorem sames_symm (gone : Nat → Bool) : ∀ a b : Nodes, Sames gone a b → Sames gone b a
  | _, _, .nil => .nil
  | _, _, .cons h h' => .cons (same_symm gone _ _ h) (sames_symm gone _ _ h')
end

mutual
theorem same_trans (gone : Nat → Bool) : ∀ a b c : Node, Same gone a b → Same gone b c → Same gone a c
  | _, _, _, .none, .none => .none
  | _, _, _, .str s, .str _ => .str s
  | _, _, _, .list h, .list g => .list (sames_trans gone _ _ _ h g)
  | _, _, _, .tag c n h h' h'', .tag _ _ g g' g'' =>
    .tag c n (fun k => (h k).trans (g k)) (same_trans gone _ _ _ h' g') (by
      rcases h'' with rfl | h''
      · exact g''
      · rcases g'' with rfl | g''
        · exact .inr h''
        · exact .inr ⟨h''.1, g''.2⟩)
theorem sames_trans (gone : Nat → Bool) : ∀ a b c : Nodes, Sames gone a b → Sames gone b c → Sames gone a c
  | _, _, _, .nil, .nil => .nil
  | _, _, _, .cons h h', .cons g g' => .cons (same_trans gone _ _ _ h g) (sames_trans gone _ _ _ h' g')
end

mutual
theorem same_later (gone gone' : Nat → Bool) (hg : ∀ c, gone c = true → gone' c = true) :
    ∀ a b : Node, Same gone a b → Same gone' a b
  | _, _, .none => .none
  | _, _, .str s => .str s
  | _, _, .list h => .list (sames_later gone gone' hg _ _ h)
  | _, _, .tag c n h h' h'' => .tag c n h (same_later gone gone' hg _ _ h')
      (h''.elim .inl fun e => .inr ⟨hg _ e.1, hg _ e.2⟩)
theorem sames_later (gone gone' : Nat → Bool) (hg : ∀ c, gone c = true → gone' c = true) :
    ∀ a b : Nodes, Sames gone a b → Sames gone' a b
  | _, _, .nil => .nil
  | _, _, .cons h h' => .cons (same_later gone gone' hg _ _ h) (sames_later gone gone' hg _ _ h')
end

/-! ### Theorems -/

/-- Two values are equal exactly if they are the same but for the order of attributes, and the contexts of their tags are the
same ones, or gone. -/
theorem C107_equal (gone : Nat → Bool) (a b : Node) (ha : Dicts a) (hb : Dicts b) :
    eqv gone a b = true ↔ Same gone a b := eqv_iff gone a b ha hb

/-- A tag in a list in a tag, with its attributes in two orders. -/
def sample (attrs : Dict Str Str) (ctx : Nat) : Node :=
  .tag 1 "body".toList [] (.list (.cons (.str "text".toList) (.cons (.tag 2 "img".toList attrs .none ctx) .nil))) 0

def one : Dict Str Str := [("width".toList, "3".toList), ("src".toList, "a.png".toList)]
def two : Dict Str Str := [("src".toList, "a.png".toList), ("width".toList, "3".toList)]

example : Dicts (sample one 0) ∧ Dicts (sample two 0) ∧ eqv (fun _ => false) (sample one 0) (sample two 0) = true ∧
    eqv (fun _ => false) (sample one 0) (sample two 1) = false := by
  refine ⟨?_, ?_, by decide +kernel, by decide +kernel⟩ <;> simp [sample, Dicts, AllDicts, one, two, Dict.keys]

/-- At any time equality is reflexive, symmetric and transitive. -/
theorem C107_equivalence (gone : Nat → Bool) (a b c : Node) (ha : Dicts a) (hb : Dicts b) (hc : Dicts c) :
    eqv gone a a = true ∧ (eqv gone a b = true → eqv gone b a = true) ∧
    (eqv gone a b = true → eqv gone b c = true → eqv gone a c = true) := by
  refine ⟨(eqv_iff gone a a ha ha).mpr (same_refl gone a), ?_, ?_⟩
  · intro h; exact (eqv_iff gone b a hb ha).mpr (same_symm gone _ _ ((eqv_iff gone a b ha hb).mp h))
  · intro h h'
    exact (eqv_iff gone a c ha hc).mpr (same_trans gone _ _ _ ((eqv_iff gone a b ha hb).mp h) ((eqv_iff gone b c hb hc).mp h'))

/-- Values that are equal are equal for as long as they are not changed, whichever contexts are dropped. -/
theorem C107_stays_equal (gone gone' : Nat → Bool) (hg : ∀ c, gone c = true → gone' c = true) (a b : Node) (ha : Dicts a)
    (hb : Dicts b) (h : eqv gone a b = true) : eqv gone' a b = true :=
  (eqv_iff gone' a b ha hb).mpr (same_later gone gone' hg _ _ ((eqv_iff gone a b ha hb).mp h))

/-- While the context of one of two tags is there, tags of different contexts are different. -/
theorem C107_contexts_partial (gone : Nat → Bool) (cls cls' : Nat) (name name' : Str) (attrs attrs' : Dict Str Str)
    (content content' : Node) (ctx ctx' : Nat) (h : ctx ≠ ctx') (hg : gone ctx = false ∨ gone ctx' = false) :
    eqv gone (.tag cls name attrs content ctx) (.tag cls' name' attrs' content' ctx') = false := by
  have : readCtx gone ctx ≠ readCtx gone ctx' := by
    intro e
    rcases (readCtx_iff gone ctx ctx').mp e with e | e
    · exact h e
    · rcases hg with hg | hg
      · rw [e.1] at hg; cases hg
      · rw [e.2] at hg; cases hg
  simp only [eqv, Bool.and_eq_false_iff]
  right
  simpa using this

/-- Finding: tags of two documents that are different because of their contexts are equal once both contexts are gone: both
then read as None. -/
theorem C107_contexts_refuted (gone gone' : Nat → Bool) (cls : Nat) (name : Str) (attrs : Dict Str Str) (content : Node)
    (ctx ctx' : Nat) (hd : Dicts (.tag cls name attrs content ctx)) (h : ctx ≠ ctx') (hg : gone ctx = false)
    (h1 : gone' ctx = true) (h2 : gone' ctx' = true) :
    eqv gone (.tag cls name attrs content ctx) (.tag cls name attrs content ctx') = false ∧
    eqv gone' (.tag cls name attrs content ctx) (.tag cls name attrs content ctx') = true := by
  refine ⟨C107_contexts_partial gone _ _ _ _ _ _ _ _ _ _ h (.inl hg), ?_⟩
  exact (eqv_iff gone' _ _ hd (by simpa [Dicts] using hd)).mpr (.tag _ _ (fun _ => rfl) (same_refl _ _) (.inr ⟨h1, h2⟩))

end Verif.TagEq
