import Verif.Spec.Validators

/-!
# C48: validated tuples
-/

namespace Verif.Validators

open Verif

variable {α : Type}

theorem convert_ok (conv : α → Except Err α) (l m : List α) : convert conv l = .ok m ↔ Converts conv l m := by
  induction l generalizing m with
  | nil =>
    simp only [convert, Except.ok.injEq]
    constructor
    · rintro rfl; exact .nil
    · intro h; cases h; rfl
  | cons a l ih =>
    rw [convert]
    cases ha : conv a with
    | error e =>
      simp only [reduceCtorEq, false_iff]
      intro h
      cases h with
      | cons _ b _ m h1 _ => rw [ha] at h1; cases h1
    | ok b =>
      simp only
      cases hl : convert conv l with
      | error e =>
        simp only [reduceCtorEq, false_iff]
        intro h
        cases h with
        | cons _ b _ m h1 h2 => rw [(ih m).2 h2] at hl; cases hl
      | ok m' =>
        simp only [Except.ok.injEq]
        constructor
        · rintro rfl; exact .cons _ _ _ _ ha ((ih m').1 hl)
        · intro h
          cases h with
          | cons _ b' _ m'' h1 h2 =>
            rw [ha] at h1
            rw [(ih m'').2 h2] at hl
            simp only [Except.ok.injEq] at h1 hl
            rw [h1, hl]

theorem convert_error (conv : α → Except Err α) (l : List α) (e : Err) : convert conv l = .error e ↔ FirstFails conv l e := by
  induction l with
  | nil => simp [convert, FirstFails]
  | cons a l ih =>
    rw [convert]
    cases ha : conv a with
    | error e' =>
      simp only [Except.error.injEq]
      constructor
      · rintro rfl; exact ⟨[], a, l, rfl, ha, by simp⟩
      · rintro ⟨p, b, q, h1, h2, h3⟩
        cases p with
        | nil =>
          simp only [List.nil_append, List.cons.injEq] at h1
          rw [← h1.1, ha] at h2
          simpa using h2
        | cons x p =>
          simp only [List.cons_append, List.cons.injEq] at h1
          obtain ⟨y, hy⟩ := h3 x (by simp)
          rw [← h1.1, ha] at hy
          cases hy
    | ok b =>
      simp only
      cases hl : convert conv l with
      | error e' =>
        rw [hl] at ih
        simp only [Except.error.injEq] at ih ⊢
        rw [ih]
        constructor
        · rintro ⟨p, x, q, h1, h2, h3⟩
          refine ⟨a :: p, x, q, by rw [h1]; rfl, h2, ?_⟩
          intro y hy
          rcases List.mem_cons.1 hy with rfl | hy
          · exact ⟨b, ha⟩
          · exact h3 y hy
        · rintro ⟨p, x, q, h1, h2, h3⟩
          cases p with
          | nil =>
            simp only [List.nil_append, List.cons.injEq] at h1
            rw [← h1.1, ha] at h2
            cases h2
          | cons y p =>
            simp only [List.cons_append, List.cons.injEq] at h1
            exact ⟨p, x, q, h1.2, h2, fun z hz => h3 z (by simp [hz])⟩
      | ok m =>
        rw [hl] at ih
        simp only [reduceCtorEq, false_iff] at ih ⊢
        rintro ⟨p, x, q, h1, h2, h3⟩
        cases p with
        | nil =>
          simp only [List.nil_append, List.cons.injEq] at h1
          rw [← h1.1, ha] at h2
          cases h2
        | cons y p =>
          simp only [List.cons_append, List.cons.injEq] at h1
          exact ih ⟨p, x, q, h1.2, h2, fun z hz => h3 z (by simp [hz])⟩

theorem Converts.length {conv : α → Except Err α} {l m : List α} (h : Converts conv l m) : m.length = l.length := by
  induction h with
  | nil => rfl
  | cons _ _ _ _ _ _ ih => simp [ih]

/-- C48: `validate_tuple` returns a tuple exactly if the argument gives items, as many as asked for, that can all be
converted; the tuple has the converted items in order. -/
theorem C48_tuple (arg : Arg α) (length : Option Nat) (type : Option (α → Except Err α)) (raiseError : Bool) (t : List α) :
    validateTuple arg length type raiseError = .tuple t ↔ ValidFor arg length type t := by
  have hf : ∀ e, (fail raiseError e : Outcome α) ≠ .tuple t := by
    intro e; cases raiseError <;> simp [fail]
  cases arg with
  | str s => simp [validateTuple, ValidFor, hf]
  | single a => simp [validateTuple, ValidFor, hf]
  | broken => simp [validateTuple, ValidFor, hf]
  | items l =>
    simp only [validateTuple, ValidFor, Arg.items.injEq, exists_eq_left']
    by_cases hl : (length ≠ none && length ≠ some l.length) = true
    · simp only [hl, if_true, hf, false_iff]
      rintro ⟨h1, h2⟩
      simp only [Bool.and_eq_true, decide_eq_true_eq] at hl
      cases length with
      | none => exact hl.1 rfl
      | some n =>
        have hn := h1 n rfl
        cases type with
        | none => simp only at h2; subst h2; exact hl.2 (by rw [hn])
        | some conv =>
          simp only at h2
          exact hl.2 (by rw [← h2.length, hn])
    · simp only [hl, if_false, Bool.false_eq_true]
      have hlen : ∀ n, length = some n → l.length = n := by
        rintro n rfl
        simp only [ne_eq, reduceCtorEq, not_false_eq_true, decide_true, Bool.true_and, Option.some.injEq, decide_not,
          Bool.not_eq_true', decide_eq_false_iff_not, Decidable.not_not] at hl
        exact hl.symm
      cases type with
      | none =>
        simp only [Outcome.tuple.injEq]
        constructor
        · rintro rfl; exact ⟨hlen, rfl⟩
        · rintro ⟨_, rfl⟩; rfl
      | some conv =>
        simp only
        cases hc : convert conv l with
        | ok m =>
          simp only [Outcome.tuple.injEq]
          have hm := (convert_ok conv l m).1 hc
          constructor
          · rintro rfl; exact ⟨fun n hn => by rw [hm.length, hlen n hn], hm⟩
          · rintro ⟨_, h⟩
            have := (convert_ok conv l t).2 h
            rw [hc] at this
            simpa using this
        | error e =>
          have hno : ¬ Converts conv l t := by
            intro h
            rw [(convert_ok conv l t).2 h] at hc
            cases hc
          cases e <;> simp [hf, hno]

/-- C48: otherwise it raises an exception, or returns `False` if it was asked not to raise; but an item that raises a
`ValueError` when it is converted raises it in any case. -/
theorem C48_failure (arg : Arg α) (length : Option Nat) (type : Option (α → Except Err α)) (raiseError : Bool)
    (h : ∀ t, ¬ ValidFor arg length type t) :
    (raiseError = true → ∃ e, validateTuple arg length type raiseError = .raises e) ∧
    (raiseError = false → validateTuple arg length type raiseError = .no ∨
      ∃ l conv, arg = .items l ∧ type = some conv ∧ FirstFails conv l .valueError ∧
        validateTuple arg length type raiseError = .raises .valueError) := by
  have hno : ∀ t, validateTuple arg length type raiseError ≠ .tuple t := fun t e => h t ((C48_tuple ..).1 e)
  cases arg with
  | str s => constructor <;> (rintro rfl; simp [validateTuple, fail])
  | single a => constructor <;> (rintro rfl; simp [validateTuple, fail])
  | broken => constructor <;> (rintro rfl; simp [validateTuple, fail])
  | items l =>
    simp only [validateTuple] at hno ⊢
    by_cases hl : (length ≠ none && length ≠ some l.length) = true
    · simp only [hl, if_true]
      constructor <;> (rintro rfl; simp [fail])
    · simp only [hl, if_false, Bool.false_eq_true] at hno ⊢
      cases type with
      | none => exact absurd rfl (hno l)
      | some conv =>
        simp only at hno ⊢
        cases hc : convert conv l with
        | ok m => rw [hc] at hno; exact absurd rfl (hno m)
        | error e =>
          cases e with
          | typeError => constructor <;> (rintro rfl; simp [fail])
          | valueError =>
            constructor
            · rintro rfl; exact ⟨_, rfl⟩
            · rintro rfl
              exact Or.inr ⟨l, conv, rfl, rfl, (convert_error conv l .valueError).1 hc, rfl⟩

/-- The kind of exception: a `TypeError` for an argument without items, a `ValueError` for a wrong length. -/
theorem C48_exceptions (length : Option Nat) (type : Option (α → Except Err α)) (s : Str) (a : α) (l : List α) (n : Nat)
    (hn : l.length ≠ n) :
    validateTuple (.str s) length type true = .raises .typeError ∧
    validateTuple (.single a) length type true = .raises .typeError ∧
    validateTuple .broken length type true = .raises .typeError ∧
    validateTuple (.items l) (some n) type true = .raises .valueError := by
  refine ⟨rfl, rfl, rfl, ?_⟩
  have : some n ≠ some l.length := by simpa using Ne.symm hn
  simp [validateTuple, fail, Ne.symm hn]

/-- The hypotheses are met. -/
example : ValidFor (.items [1, 2, 3, 4]) (some 4) (some fun (n : Int) => .ok (n + 1)) [2, 3, 4, 5] :=
  ⟨_, rfl, by simp, .cons _ _ _ _ rfl (.cons _ _ _ _ rfl (.cons _ _ _ _ rfl (.cons _ _ _ _ rfl .nil)))⟩

/-- Finding: `raise_error=False` does not keep a `ValueError` of an item, as of `int('a')`, from being raised. -/
theorem C48_raises_anyway : validateTuple (.items [1]) none (some fun (_ : Nat) => .error .valueError) false = .raises .valueError := rfl

/-! ## Cropping -/

theorem convert_id (l : List α) : convert .ok l = .ok l := by
  induction l with
  | nil => rfl
  | cons a l ih => simp [convert, ih]

/-- C48: the crop builder passes four numbers or one number on as given; anything else is an error. -/
theorem C48_crop (n : Int) (hn : n ≠ 0) (l : List Int) (hl : l ≠ []) (s : Str) (hs : s ≠ []) (p : Option Param) (prog : Str) (args : List Str) :
    pdfcrop (some (.int n)) p none prog args = .ok (prog :: "-p".toList :: showInt n :: args) ∧
    (l.length = 4 → pdfcrop (some (.arg (.items l))) p none prog args = .ok (prog :: "-p4".toList :: (l.map showInt ++ args))) ∧
    (l.length ≠ 4 → pdfcrop (some (.arg (.items l))) p none prog args = .error .valueError) ∧
    pdfcrop (some (.arg (.str s))) p none prog args = .error .typeError ∧
    pdfcrop none (some (.int n)) none prog args = pdfcrop (some (.int n)) p none prog args := by
  refine ⟨?_, ?_, ?_, ?_, ?_⟩
  · simp [pdfcrop, orElse, setting, Param.truthy, hn, cropArgs]
  · intro h4
    simp [pdfcrop, orElse, setting, Param.truthy, hl, cropArgs, validateTuple, h4, convert_id]
  · intro h4
    simp [pdfcrop, orElse, setting, Param.truthy, hl, cropArgs, validateTuple, fail, Ne.symm h4]
  · simp [pdfcrop, orElse, setting, Param.truthy, hs, cropArgs, validateTuple, fail]
  · simp [pdfcrop, orElse, setting, Param.truthy, hn, cropArgs]

/-- C48: other values are errors too, be it as crop or as offset; zero, an empty text and an empty tuple count as no value. -/
theorem C48_crop_other (k : Int) (p : Option Param) (prog : Str) (args : List Str) :
    (pdfcrop (some (.arg (.single k))) p none prog args = .error .typeError ∧
      pdfcrop (some (.arg .broken)) p none prog args = .error .typeError ∧
      pdfcrop none none (some (.arg (.single k))) prog args = .error .typeError ∧
      pdfcrop none none (some (.arg .broken)) prog args = .error .typeError) ∧
    (∀ v ∈ [Param.int 0, .arg (.str []), .arg (.items [])], pdfcrop (some v) p none prog args = pdfcrop none p none prog args) := by
  refine ⟨⟨rfl, rfl, rfl, rfl⟩, ?_⟩
  intro v hv
  simp only [List.mem_cons, List.not_mem_nil, or_false] at hv
  rcases hv with rfl | rfl | rfl <;> rfl

/-- C48: an offset of four numbers is passed on, before the crop. -/
theorem C48_offset (l m : List Int) (hl : l.length = 4) (hm : m.length = 4) (prog : Str) (args : List Str) :
    pdfcrop (some (.arg (.items l))) none (some (.arg (.items m))) prog args =
      .ok (prog :: "-a4".toList :: (m.map showInt ++ ("-p4".toList :: (l.map showInt ++ args)))) := by
  have h1 : l ≠ [] := by rintro rfl; simp at hl
  have h2 : m ≠ [] := by rintro rfl; simp at hm
  simp [pdfcrop, orElse, setting, Param.truthy, h1, h2, cropArgs, validateTuple, hl, hm, convert_id]

/-- Finding: a single number as offset is accepted, and ignored. -/
theorem C48_single_offset_ignored (crop p : Option Param) (n : Int) (prog : Str) (args : List Str) :
    pdfcrop crop p (some (.int n)) prog args = pdfcrop crop p none prog args := by
  unfold pdfcrop
  cases setting (orElse crop p) with
  | error e => rfl
  | ok c =>
    by_cases hn : n = 0
    · simp [setting, Param.truthy, hn]
    · simp [setting, Param.truthy, hn, cropArgs]

end Verif.Validators
