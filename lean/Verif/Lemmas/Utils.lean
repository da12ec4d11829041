import Verif.Model.Utils
import Verif.Spec.Utils
import Verif.Lemmas.Strings
import Verif.Lemmas.Dict
import Verif.Lemmas.Lists
import Mathlib.Data.List.Induction
import Mathlib.Data.List.Chain

/-! # Lemmas on the string and dict utilities -/

set_option linter.unusedSimpArgs false
set_option linter.unusedVariables false

namespace Verif.Utils

open Verif

/-- The number of pieces of a join. -/
theorem split_join_length (d : Char) (ps : List Str) (hne : ps ≠ []) (h : ∀ p ∈ ps, d ∉ p) :
    (split [d] (join [d] ps)).length = ps.length := by rw [split_join d ps hne h]

theorem mem_join (sep : Str) (ps : List Str) (c : Char) (h : c ∈ join sep ps) : c ∈ sep ∨ ∃ p ∈ ps, c ∈ p := by
  induction ps with
  | nil => simp [join] at h
  | cons p ps ih =>
    cases ps with
    | nil => right; exact ⟨p, by simp, by simpa [join] using h⟩
    | cons q qs =>
      rw [join_cons _ _ _ (by simp)] at h
      simp only [List.mem_append] at h
      rcases h with (h | h) | h
      · right; exact ⟨p, by simp, h⟩
      · left; exact h
      · rcases ih h with h | ⟨x, hx, hc⟩
        · left; exact h
        · right; exact ⟨x, by simp [hx], hc⟩

theorem not_mem_join (d c : Char) (ps : List Str) (hd : c ≠ d) (h : ∀ p ∈ ps, c ∉ p) : c ∉ join [d] ps := by
  intro hc
  rcases mem_join _ _ _ hc with hc | ⟨p, hp, hcp⟩
  · simp at hc; exact hd hc
  · exact h p hp hcp

/-! ### Colons -/

theorem findColon_some (p : Char) (s k r : Str) (h : findColon (some p) s = some (k, r)) :
    s = k ++ ':' :: r ∧ (∀ a b, k = a ++ ':' :: b → (p :: a).getLast? = some '\\') ∧ (p :: k).getLast? ≠ some '\\' := by
  induction s generalizing p k with
  | nil => simp [findColon] at h
  | cons c t ih =>
    simp only [findColon] at h
    split at h
    · rename_i hc
      simp at h
      obtain ⟨rfl, rfl⟩ := h
      refine ⟨by simp [hc.1], by simp, by simpa using hc.2⟩
    · rename_i hc
      cases hf : findColon (some c) t with
      | none => rw [hf] at h; simp at h
      | some kr =>
        obtain ⟨k', r'⟩ := kr
        rw [hf] at h
        simp at h
        obtain ⟨rfl, rfl⟩ := h
        obtain ⟨h1, h2, h3⟩ := ih c k' hf
        refine ⟨by simp [h1], ?_, ?_⟩
        · intro a b hab
          cases a with
          | nil =>
            simp at hab
            obtain ⟨rfl, rfl⟩ := hab
            simp only [true_and, ne_eq, Decidable.not_not] at hc
            simp [hc]
          | cons x a =>
            simp at hab
            obtain ⟨rfl, rfl⟩ := hab
            have := h2 a b rfl
            rw [List.getLast?_cons_cons]; exact this
        · rw [List.getLast?_cons_cons]; exact h3

theorem findColon_none (p : Char) (s : Str) (h : findColon (some p) s = none) :
    ∀ a r, s = a ++ ':' :: r → (p :: a).getLast? = some '\\' := by
  induction s generalizing p with
  | nil => simp
  | cons c t ih =>
    simp only [findColon] at h
    split at h
    · simp at h
    · rename_i hc
      cases hf : findColon (some c) t with
      | some kr => rw [hf] at h; simp at h
      | none =>
        intro a r hab
        cases a with
        | nil =>
          simp at hab
          obtain ⟨rfl, rfl⟩ := hab
          simp only [true_and, ne_eq, Decidable.not_not] at hc
          simp [hc]
        | cons x a =>
          simp at hab
          obtain ⟨rfl, rfl⟩ := hab
          have := ih c hf a r rfl
          rw [List.getLast?_cons_cons]; exact this

theorem findColon_append (p : Char) (k r : Str) (h1 : ∀ a b, k = a ++ ':' :: b → (p :: a).getLast? = some '\\')
    (h2 : (p :: k).getLast? ≠ some '\\') : findColon (some p) (k ++ ':' :: r) = some (k, r) := by
  induction k generalizing p with
  | nil => simp [findColon]; intro h; simp [h] at h2
  | cons c k ih =>
    simp only [List.cons_append, findColon]
    have hc : ¬ (c = ':' ∧ p ≠ '\\') := by
      rintro ⟨rfl, hp⟩
      have := h1 [] k rfl
      simp at this; exact hp this
    rw [if_neg hc, ih c (fun a b hab => by
      have := h1 (c :: a) b (by simp [hab])
      rwa [List.getLast?_cons_cons] at this) (by rwa [List.getLast?_cons_cons] at h2)]
    rfl

theorem findColon_key (k r : Str) (h : GoodKey k) : findColon none (k ++ ':' :: r) = some (k, r) := by
  obtain ⟨h0, h1, h2⟩ := h
  cases k with
  | nil => exact absurd rfl h0
  | cons c k =>
    simp only [List.cons_append, findColon]
    rw [findColon_append c k r (fun a b hab => h1 (c :: a) b (by simp [hab]) (by simp)) h2]
    rfl

theorem findColon_key_some (s k r : Str) (h : findColon none s = some (k, r)) : s = k ++ ':' :: r ∧ GoodKey k := by
  cases s with
  | nil => simp [findColon] at h
  | cons c t =>
    simp only [findColon] at h
    cases hf : findColon (some c) t with
    | none => rw [hf] at h; simp at h
    | some kr =>
      obtain ⟨k', r'⟩ := kr
      rw [hf] at h
      simp at h
      obtain ⟨rfl, rfl⟩ := h
      obtain ⟨h1, h2, h3⟩ := findColon_some c t k' r' hf
      refine ⟨by simp [h1], by simp, ?_, h3⟩
      intro a b hab ha
      cases a with
      | nil => exact absurd rfl ha
      | cons x a =>
        simp at hab
        obtain ⟨rfl, rfl⟩ := hab
        exact h2 a b rfl

/-! ### The loop -/

/-- What the dict holds after the blocks. -/
def addBlock (sp : Char → Bool) (d : Dict Str (List Str)) (b : Block) : Dict Str (List Str) :=
  d.set (b.key sp) ((d.get? (b.key sp)).getD [] ++ b.value)

theorem appendTo_set (d : Dict Str (List Str)) (k : Str) (l : List Str) (x : Str) :
    appendTo (d.set k l) k x = d.set k (l ++ [x]) := by
  unfold appendTo
  rw [Dict.get?_set_self]
  simp only [Option.getD_some]
  -- setting twice
  induction d with
  | nil => simp [Dict.set]
  | cons kv d ih =>
    obtain ⟨k', v⟩ := kv
    simp only [Dict.set]
    split
    · rename_i h; simp [Dict.set, h]
    · rename_i h; simp only [Dict.set, if_neg h, ih]

/-- The state of the loop after the lines, in terms of blocks. -/
theorem dictStep_blocks (sp : Char → Bool) (lines : List Str) :
    ∃ pre bs, Blocks sp lines pre bs ∧
      lines.foldl (dictStep sp) ⟨[], none⟩ =
        ⟨bs.foldl (addBlock sp) [], bs.getLast?.map fun b => (b.key sp, b.entry.level)⟩ := by
  induction lines using List.reverseRecOn with
  | nil =>
    exact ⟨[], [], ⟨by simp, by simp, by simp, by simp, List.IsChain.nil⟩, rfl⟩
  | append_singleton lines line ih =>
    obtain ⟨pre, bs, hb, hst⟩ := ih
    rw [List.foldl_append, List.foldl_cons, List.foldl_nil, hst]
    -- a new block
    have new : ∀ e, matchEntry sp line = some e → (∀ b, bs.getLast? = some b → e.level ≤ b.entry.level) →
        Blocks sp (lines ++ [line]) pre (bs ++ [⟨line, e, []⟩]) := by
      intro e he hl
      refine ⟨?_, hb.noEntry, ?_, ?_, ?_⟩
      · rw [hb.all]; simp [Block.lines]
      · intro b hbm
        rcases List.mem_append.1 hbm with h | h
        · exact hb.heads b h
        · simp at h; subst h; exact he
      · intro b hbm
        rcases List.mem_append.1 hbm with h | h
        · exact hb.bodies b h
        · simp at h; subst h; simp
      · rw [List.isChain_append]
        refine ⟨hb.levels, List.isChain_singleton _, ?_⟩
        intro x hx y hy
        simp at hy; subst hy
        exact hl x hx
    -- a line of the last block
    have more : ∀ bs' b, bs = bs' ++ [b] → (∀ e, matchEntry sp line = some e → e.level > b.entry.level) →
        Blocks sp (lines ++ [line]) pre (bs' ++ [{ b with body := b.body ++ [line] }]) ∧
        (bs' ++ [{ b with body := b.body ++ [line] }]).foldl (addBlock sp) [] =
          appendTo (bs.foldl (addBlock sp) []) (b.key sp) (unescape (line.drop b.entry.level)) := by
      rintro bs' b rfl hl
      constructor
      · refine ⟨?_, hb.noEntry, ?_, ?_, ?_⟩
        · rw [hb.all]; simp [Block.lines]
        · intro x hx
          rcases List.mem_append.1 hx with h | h
          · exact hb.heads x (by simp [h])
          · simp at h; subst h; exact hb.heads b (by simp)
        · intro x hx
          rcases List.mem_append.1 hx with h | h
          · exact hb.bodies x (by simp [h])
          · simp at h; subst h
            intro l hl' e he
            rcases List.mem_append.1 hl' with h | h
            · exact hb.bodies b (by simp) l h e he
            · simp at h; subst h; exact hl e he
        · have := hb.levels
          rw [List.isChain_append] at this ⊢
          refine ⟨this.1, List.isChain_singleton _, ?_⟩
          intro x hx y hy
          simp at hy; subst hy
          exact this.2.2 x hx b (by simp)
      · rw [List.foldl_append, List.foldl_append, List.foldl_cons, List.foldl_nil, List.foldl_cons, List.foldl_nil]
        rw [show addBlock sp (List.foldl (addBlock sp) [] bs') b =
          Dict.set (List.foldl (addBlock sp) [] bs') (b.key sp)
            ((Dict.get? (List.foldl (addBlock sp) [] bs') (b.key sp)).getD [] ++ b.value) from rfl, appendTo_set]
        simp [addBlock, Block.key, Block.value]
    rcases List.eq_nil_or_concat bs with hnil | ⟨bs', b, hcon⟩
    · subst hnil
      cases he : matchEntry sp line with
      | none =>
        refine ⟨pre ++ [line], [], ⟨?_, ?_, by simp, by simp, List.IsChain.nil⟩, ?_⟩
        · have := hb.all; simp at this; simp [this]
        · intro l hl
          rcases List.mem_append.1 hl with h | h
          · exact hb.noEntry l h
          · simp at h; subst h; exact he
        · simp [dictStep, he]
      | some e =>
        refine ⟨pre, _, new e he (by simp), ?_⟩
        simp [dictStep, he, addBlock, appendTo, Block.key, Block.value]
    · rw [List.concat_eq_append] at hcon
      subst hcon
      cases he : matchEntry sp line with
      | none =>
        obtain ⟨m1, m2⟩ := more bs' b rfl (by simp [he])
        refine ⟨pre, _, m1, ?_⟩
        simp only [dictStep, he, m2]
        simp [Block.key]
      | some e =>
        by_cases hl : e.level > b.entry.level
        · obtain ⟨m1, m2⟩ := more bs' b rfl (by intro e' h'; rw [he] at h'; simp at h'; subst h'; exact hl)
          refine ⟨pre, _, m1, ?_⟩
          simp only [dictStep, he, m2]
          simp [Block.key, hl]
        · refine ⟨pre, _, new e he (by intro x hx; simp at hx; subst hx; omega), ?_⟩
          simp only [dictStep, he]
          simp [hl, addBlock, appendTo, Block.key, Block.value]

end Verif.Utils
