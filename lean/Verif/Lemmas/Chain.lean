import Verif.Spec.Chain
import Verif.Lemmas.Lists

/-!
# Lemmas about chains of builders
-/

namespace Verif.Chain

open Verif

variable {P O C : Type} [DecidableEq P]

/-! ### Parameters without repetition -/

theorem uniqLoop_snoc (seen l : List P) (p : P) :
    Lists.uniqLoop id seen (l ++ [p]) = Lists.uniqLoop id seen l ++ (if p ∈ seen ∨ p ∈ l then [] else [p]) := by
  induction l generalizing seen with
  | nil => by_cases h : p ∈ seen <;> simp [Lists.uniqLoop, h]
  | cons a l ih =>
    rw [List.cons_append, Lists.uniqLoop, Lists.uniqLoop]
    by_cases h : id a ∈ seen
    · rw [if_pos h, if_pos h, ih]
      congr 1
      have : (p ∈ seen ∨ p ∈ l) ↔ (p ∈ seen ∨ p ∈ a :: l) := by
        simp only [List.mem_cons]
        constructor
        · rintro (h | h); exact .inl h; exact .inr (.inr h)
        · rintro (h' | rfl | h')
          · exact .inl h'
          · exact .inl h
          · exact .inr h'
      by_cases c : p ∈ seen ∨ p ∈ l
      · rw [if_pos c, if_pos (this.1 c)]
      · rw [if_neg c, if_neg (fun h => c (this.2 h))]
    · rw [if_neg h, if_neg h, ih, List.cons_append]
      congr 2
      have : (p ∈ id a :: seen ∨ p ∈ l) ↔ (p ∈ seen ∨ p ∈ a :: l) := by
        simp only [List.mem_cons, id]
        constructor
        · rintro ((h | h) | h); exact .inr (.inl h); exact .inl h; exact .inr (.inr h)
        · rintro (h | h | h); exact .inl (.inr h); exact .inl (.inl h); exact .inr h
      by_cases c : p ∈ seen ∨ p ∈ a :: l
      · rw [if_pos c, if_pos (this.2 c)]
      · rw [if_neg c, if_neg (fun h => c (this.1 h))]

theorem once_uniq_rev (r : List P) : Once r.reverse (Lists.uniq id r.reverse) := by
  unfold Lists.uniq
  induction r with
  | nil => exact .nil
  | cons p r ih =>
    rw [List.reverse_cons, uniqLoop_snoc]
    by_cases h : p ∈ r.reverse
    · rw [if_pos (.inr h), List.append_nil]; exact .again p _ _ h ih
    · rw [if_neg (by rintro (h' | h'); cases h'; exact h h')]; exact .cons p _ _ h ih

theorem once_uniq (l : List P) : Once l (Lists.uniq id l) := by
  have := once_uniq_rev l.reverse
  rwa [List.reverse_reverse] at this

theorem once_eq (l r : List P) (h : Once l r) : r = Lists.uniq id l := by
  unfold Lists.uniq
  induction h with
  | nil => rfl
  | cons p l r hp _ ih => rw [uniqLoop_snoc, if_neg (by rintro (h' | h'); cases h'; exact hp h'), ← ih]
  | again p l r hp _ ih => rw [uniqLoop_snoc, if_pos (.inr hp), ← ih, List.append_nil]

theorem uniqLoop_find (f : P → Bool) (seen l : List P) (h : ∀ a ∈ seen, f a = false) :
    (Lists.uniqLoop id seen l).find? f = l.find? f := by
  induction l generalizing seen with
  | nil => rfl
  | cons a l ih =>
    rw [Lists.uniqLoop]
    by_cases hs : id a ∈ seen
    · rw [if_pos hs, ih seen h, List.find?_cons, h a hs]
    · rw [if_neg hs, List.find?_cons, List.find?_cons]
      cases hf : f a with
      | true => rfl
      | false =>
        simp only
        apply ih
        intro x hx
        rcases List.mem_cons.1 hx with rfl | hx
        · exact hf
        · exact h x hx

theorem uniq_find (f : P → Bool) (l : List P) : (Lists.uniq id l).find? f = l.find? f :=
  uniqLoop_find f [] l (by simp)

/-! ### Output paths -/

omit [DecidableEq P] in
theorem shapes_eq (l : List (B P O C)) : shapes l = l.map shape := by
  induction l with
  | nil => rfl
  | cons b l ih => rw [shapes, ih]; rfl

mutual
theorem getOut_shape : (b : B P O C) → shape (getOut b).2 = shape b
  | .leaf k s none => by simp [getOut, shape]
  | .leaf k s (some o) => by simp [getOut, shape]
  | .seq k none f s none subs => by simp [getOut, shape]
  | .seq k (some i) f s none subs => by simp only [getOut, shape]; rw [getOutAt_shape subs i]
  | .seq k i f s (some o) subs => by simp [getOut, shape]
theorem getOutAt_shape : (bs : List (B P O C)) → (i : Nat) → shapes (getOutAt bs i).2 = shapes bs
  | [], _ => by simp [getOutAt]
  | b :: bs, 0 => by simp only [getOutAt, shapes]; rw [getOut_shape b]
  | b :: bs, i + 1 => by simp only [getOutAt, shapes]; rw [getOutAt_shape bs i]
end

theorem getOut_fields (b : B P O C) : storedOf (getOut b).2 = storedOf b ∧ paramsOf (getOut b).2 = paramsOf b ∧
    outOf (getOut b).2 = some (getOut b).1 ∧ copies (getOut b).2 = copies b := by
  cases b with
  | leaf k s o => cases o <;> simp [getOut, storedOf, paramsOf, outOf, copies]
  | seq k i f s o subs =>
    cases o with
    | some o => simp [getOut, storedOf, paramsOf, outOf, copies]
    | none => cases i <;> simp [getOut, storedOf, paramsOf, outOf, copies]

theorem getOut_done (b : B P O C) (o : O) (h : outOf b = some o) : getOut b = (o, b) := by
  cases b with
  | leaf k s o' => simp only [outOf] at h; subst h; simp [getOut]
  | seq k i f s o' subs => simp only [outOf] at h; subst h; simp [getOut]

theorem getOutAt_done (bs : List (B P O C)) (i : Nat) (h : ∀ b ∈ bs, ∃ o, outOf b = some o) : (getOutAt bs i).2 = bs := by
  induction bs generalizing i with
  | nil => simp [getOutAt]
  | cons b bs ih =>
    cases i with
    | zero =>
      obtain ⟨o, ho⟩ := h b (by simp)
      simp [getOutAt, getOut_done b o ho]
    | succ i => simp only [getOutAt]; rw [ih i (fun b hb => h b (by simp [hb]))]

theorem parameters_eq (b : B P O C) : b.parameters = Lists.uniq id (paramsOf b) := by
  cases b <;> rfl

omit [DecidableEq P] in
theorem reset_fields (cur : List P) (h : cur ≠ []) (b : B P O C) : storedOf (reset cur b) = cur ∧ copies (reset cur b) = copies b ∧
    shape (reset cur b) = shape b := by
  cases b <;> simp [reset, storedOf, copies, shape, h]

omit [DecidableEq P] in
theorem setOut_fields (o : O) (b : B P O C) : storedOf (setOut o b) = storedOf b ∧ paramsOf (setOut o b) = paramsOf b ∧
    copies (setOut o b) = copies b ∧ shape (setOut o b) = shape b ∧ outOf (setOut o b) = some o := by
  cases b <;> simp [setOut, storedOf, paramsOf, copies, shape, outOf]

/-! ### The loop -/

theorem getOut_generated (cur : List P) (b : B P O C) : Generated (Lists.uniq id (paramsOf (getOut (reset cur b)).2)) (getOut (reset cur b)).2
    (getOut (reset cur b)).1 := by
  cases b with
  | leaf k s o => simp only [reset, getOut, paramsOf]; exact .leaf _ _ _
  | seq k i f s o subs =>
    cases i with
    | none => simp only [reset, getOut, paramsOf]; exact .seq _ _ _ _ _ _ _ (fun _ => rfl)
    | some i => simp only [reset, getOut, paramsOf]; exact .seq _ _ _ _ _ _ _ (fun h => by cases h)

theorem link_linked (path : O → P) (isPath : P → Bool) (cur : List P) (h : cur ≠ []) (bs : List (B P O C)) :
    Linked path isPath cur (link path isPath cur bs) := by
  induction bs generalizing cur with
  | nil => exact .nil _
  | cons b bs ih =>
    simp only [link]
    obtain ⟨h1, h2, h3, h4⟩ := getOut_fields (reset cur b)
    refine .cons cur _ _ _ _ (by rw [h1]; exact (reset_fields cur h b).1) h3 (once_uniq _) (fun _ => getOut_generated cur b) ?_
    rw [parameters_eq]
    exact ih _ (by simp)

omit [DecidableEq P] in
theorem reset_shape (cur : List P) (b : B P O C) : shape (reset cur b) = shape b ∧ copies (reset cur b) = copies b := by
  cases b <;> simp [reset, shape, copies]

theorem link_shape (path : O → P) (isPath : P → Bool) (cur : List P) (bs : List (B P O C)) :
    shapes (link path isPath cur bs) = shapes bs := by
  induction bs generalizing cur with
  | nil => rfl
  | cons b bs ih => simp only [link, shapes]; rw [ih, getOut_shape, (reset_shape cur b).1]

theorem link_out (path : O → P) (isPath : P → Bool) (cur : List P) (bs : List (B P O C)) :
    ∀ b ∈ link path isPath cur bs, ∃ o, outOf b = some o := by
  induction bs generalizing cur with
  | nil => intro b hb; cases hb
  | cons b bs ih =>
    intro b' hb'
    simp only [link] at hb'
    rcases List.mem_cons.1 hb' with rfl | hb'
    · exact ⟨_, (getOut_fields (reset cur b)).2.2.1⟩
    · exact ih _ b' hb'

theorem link_ne (path : O → P) (isPath : P → Bool) (cur : List P) (bs : List (B P O C)) :
    link path isPath cur bs = [] ↔ bs = [] := by
  cases bs <;> simp [link]

omit [DecidableEq P] in
theorem setLast_snoc (o : O) (bs : List (B P O C)) (b : B P O C) : setLast o (bs ++ [b]) = bs ++ [setOut o b] := by
  induction bs with
  | nil => rfl
  | cons a bs ih =>
    cases hb : bs ++ [b] with
    | nil => simp at hb
    | cons x xs =>
      show setLast o (a :: (bs ++ [b])) = _
      rw [hb, setLast, ← hb, ih]
      · rfl
      · simp

omit [DecidableEq P] in
theorem linked_setLast (path : O → P) (isPath : P → Bool) (given : List P) (bs : List (B P O C)) (b : B P O C) (o : O)
    (hcp : copies b = true) (h : Linked path isPath given (bs ++ [b])) : Linked path isPath given (bs ++ [setOut o b]) := by
  induction bs generalizing given with
  | nil =>
    cases h with
    | cons _ _ o' ps _ h1 h2 h3 _ _ =>
      obtain ⟨e1, e2, e3, e4, e5⟩ := setOut_fields o b
      exact .cons given _ o ps [] (by rw [e1, h1]) e5 (by rw [e2]; exact h3) (fun hf => by rw [e3, hcp] at hf; cases hf) (.nil _)
  | cons a bs ih =>
    cases h with
    | cons _ _ o' ps _ h1 h2 h3 hg h4 => exact .cons given a o' ps _ h1 h2 h3 hg (ih _ h4)

/-- What stays the same of a builder when its sub-builders are chained. -/
def Kept (b b' : B P O C) : Prop := storedOf b' = storedOf b ∧ paramsOf b' = paramsOf b ∧ outOf b' = outOf b ∧ copies b' = copies b ∧
  ∀ ps o, Generated ps b o → Generated ps b' o

inductive Each (R : B P O C → B P O C → Prop) : List (B P O C) → List (B P O C) → Prop
  | nil : Each R [] []
  | cons {b b' bs bs'} : R b b' → Each R bs bs' → Each R (b :: bs) (b' :: bs')

omit [DecidableEq P] in
theorem chainAll_ok (f : B P O C → Except Err (B P O C)) (bs bs' : List (B P O C)) (h : chainAll f bs = .ok bs') :
    Each (fun b b' => f b = .ok b') bs bs' := by
  induction bs generalizing bs' with
  | nil => simp only [chainAll, Except.ok.injEq] at h; subst h; exact .nil
  | cons b bs ih =>
    simp only [chainAll] at h
    cases hb : f b with
    | error e => rw [hb] at h; cases h
    | ok b1 =>
      rw [hb] at h
      cases hbs : chainAll f bs with
      | error e => rw [hbs] at h; cases h
      | ok bs1 =>
        rw [hbs] at h
        simp only [Except.ok.injEq] at h
        subst h
        exact .cons hb (ih bs1 hbs)

omit [DecidableEq P] in
theorem Each.snoc {R : B P O C → B P O C → Prop} {l : List (B P O C)} {b : B P O C} {r : List (B P O C)} (h : Each R (l ++ [b]) r) :
    ∃ l' b', r = l' ++ [b'] ∧ Each R l l' ∧ R b b' := by
  induction l generalizing r with
  | nil =>
    cases h with
    | cons h1 h2 => cases h2; exact ⟨[], _, rfl, .nil, h1⟩
  | cons a l ih =>
    cases h with
    | cons h1 h2 =>
      obtain ⟨l', b', rfl, h3, h4⟩ := ih h2
      exact ⟨_ :: l', b', rfl, .cons h1 h3, h4⟩

omit [DecidableEq P] in
theorem Each.mem {R : B P O C → B P O C → Prop} {l r : List (B P O C)} (h : Each R l r) : ∀ b' ∈ r, ∃ b ∈ l, R b b' := by
  induction h with
  | nil => intro b' hb'; cases hb'
  | cons h1 _ ih =>
    intro b' hb'
    rcases List.mem_cons.1 hb' with rfl | hb'
    · exact ⟨_, by simp, h1⟩
    · obtain ⟨b, hb, hr⟩ := ih b' hb'
      exact ⟨b, by simp [hb], hr⟩

omit [DecidableEq P] in
theorem Each.imp {R S : B P O C → B P O C → Prop} {l r : List (B P O C)} (h : Each R l r) (hi : ∀ b ∈ l, ∀ b', R b b' → S b b') :
    Each S l r := by
  induction h with
  | nil => exact .nil
  | cons h1 _ ih => exact .cons (hi _ (by simp) _ h1) (ih fun b hb => hi b (by simp [hb]))

omit [DecidableEq P] in
theorem linked_kept (path : O → P) (isPath : P → Bool) (given : List P) (bs bs' : List (B P O C)) (h : Linked path isPath given bs)
    (he : Each Kept bs bs') : Linked path isPath given bs' := by
  induction he generalizing given with
  | nil => exact .nil _
  | cons h1 _ ih =>
    cases h with
    | cons _ _ o ps _ e1 e2 e3 eg e4 =>
      obtain ⟨k1, k2, k3, k4, k5⟩ := h1
      exact .cons given _ o ps _ (by rw [k1, e1]) (by rw [k3, e2]) (by rw [k2]; exact e3) (fun hf => k5 _ _ (eg (by rw [← k4]; exact hf))) (ih _ e4)

omit [DecidableEq P] in
theorem each_shapes {bs bs' : List (B P O C)} (h : Each (fun b b' => shape b' = shape b) bs bs') : shapes bs' = shapes bs := by
  induction h with
  | nil => rfl
  | cons h1 _ ih => rw [shapes, shapes, h1, ih]

/-! ### One level -/

theorem level_ok (path : O → P) (isPath : P → Bool) (k : Kind P O C) (i : Option Nat) (f : O → Option O → O) (s : List P) (o : Option O)
    (subs : List (B P O C)) (b' : B P O C) (h : level path isPath (.seq k i f s o subs) = .ok b') :
    ∃ o' subs' last, b' = .seq k i f s o' (subs' ++ [last]) ∧
      (s ++ k.extra s ≠ [] → Linked path isPath (Lists.uniq id (s ++ k.extra s)) (subs' ++ [last])) ∧
      (copies last = true → ∃ x, o' = some x ∧ outOf last = some x) ∧
      shapes (subs' ++ [last]) = shapes subs ∧ (∀ x, o = some x → o' = some x) := by
  have hp : B.parameters (.seq k i f s o subs) = Lists.uniq id (s ++ k.extra s) := rfl
  have hlink : s ++ k.extra s ≠ [] → Linked path isPath (Lists.uniq id (s ++ k.extra s))
      (link path isPath (Lists.uniq id (s ++ k.extra s)) subs) := by
    intro hne
    apply link_linked
    intro he
    obtain ⟨x, xs, hx⟩ := List.exists_cons_of_ne_nil hne
    have := (Lists.mem_uniq (s ++ k.extra s) x).2 (by rw [hx]; simp)
    rw [he] at this; cases this
  simp only [level, hp] at h
  have hout := link_out path isPath (Lists.uniq id (s ++ k.extra s)) subs
  have hshape := link_shape path isPath (Lists.uniq id (s ++ k.extra s)) subs
  generalize link path isPath (Lists.uniq id (s ++ k.extra s)) subs = ls at h hlink hout hshape
  cases hl : ls.getLast? with
  | none => rw [hl] at h; cases h
  | some last =>
    rw [hl] at h
    obtain ⟨init, rfl⟩ := List.getLast?_eq_some_iff.1 hl
    have hcopy : last.isCopy = copies last := by cases last <;> rfl
    simp only [hcopy] at h
    by_cases hc : copies last = true
    · rw [if_pos hc] at h
      have hg : ∃ x, getOut (.seq k i f s o (init ++ [last])) = (x, .seq k i f s (some x) (init ++ [last])) ∧ ∀ y, o = some y → y = x := by
        cases o with
        | some x => exact ⟨x, by simp [getOut], fun y hy => (Option.some.inj hy).symm⟩
        | none =>
          cases i with
          | none => exact ⟨f (k.gen (Lists.uniq id (s ++ k.extra s))) none, by simp only [getOut], fun y hy => by cases hy⟩
          | some i => exact ⟨_, by simp only [getOut]; rw [getOutAt_done _ i hout], fun y hy => by cases hy⟩
      obtain ⟨x, hx, hxo⟩ := hg
      rw [hx] at h
      simp only [Except.ok.injEq] at h
      subst h
      rw [setLast_snoc]
      obtain ⟨e1, e2, e3, e4, e5⟩ := setOut_fields x last
      refine ⟨some x, init, setOut x last, rfl, fun hne => linked_setLast path isPath _ init last x hc (hlink hne), fun _ => ⟨x, rfl, e5⟩, ?_,
        fun y hy => by rw [hxo y hy]⟩
      rw [← hshape, shapes_eq, shapes_eq]
      simp [e4]
    · rw [if_neg hc] at h
      simp only [Except.ok.injEq] at h
      subst h
      exact ⟨o, init, last, rfl, hlink, fun h => absurd h hc, hshape, fun x hx => hx⟩

theorem chain_kept (path : O → P) (isPath : P → Bool) (n : Nat) (b b' : B P O C) (h : chain path isPath n b = .ok b') :
    storedOf b' = storedOf b ∧ paramsOf b' = paramsOf b ∧ copies b' = copies b ∧ (∀ x, outOf b = some x → outOf b' = some x) ∧
    ∀ ps o, Generated ps b o → Generated ps b' o := by
  cases b with
  | leaf k s o => simp only [chain, Except.ok.injEq] at h; subst h; exact ⟨rfl, rfl, rfl, fun _ h => h, fun _ _ h => h⟩
  | seq k i f s o subs =>
    cases n with
    | zero => simp [chain] at h
    | succ n =>
      simp only [chain] at h
      cases hl : level path isPath (.seq k i f s o subs) with
      | error e => rw [hl] at h; cases h
      | ok b1 =>
        rw [hl] at h
        obtain ⟨o', subs', last, rfl, -, -, -, ho⟩ := level_ok path isPath k i f s o subs b1 hl
        simp only at h
        cases hc : chainAll (chain path isPath n) (subs' ++ [last]) with
        | error e => rw [hc] at h; cases h
        | ok subs2 =>
          rw [hc] at h
          simp only [Except.ok.injEq] at h
          subst h
          refine ⟨rfl, rfl, rfl, ho, ?_⟩
          intro ps x hg
          cases hg with
          | seq _ _ _ _ _ _ name hn => exact .seq _ _ _ _ _ _ name hn

theorem chain_shape (path : O → P) (isPath : P → Bool) (n : Nat) (b b' : B P O C) (h : chain path isPath n b = .ok b') :
    shape b' = shape b := by
  induction n generalizing b b' with
  | zero =>
    cases b with
    | leaf k s o => simp only [chain, Except.ok.injEq] at h; subst h; rfl
    | seq => simp [chain] at h
  | succ n ih =>
    cases b with
    | leaf k s o => simp only [chain, Except.ok.injEq] at h; subst h; rfl
    | seq k i f s o subs =>
      simp only [chain] at h
      cases hl : level path isPath (.seq k i f s o subs) with
      | error e => rw [hl] at h; cases h
      | ok b1 =>
        rw [hl] at h
        obtain ⟨o', subs', last, rfl, -, -, hs, -⟩ := level_ok path isPath k i f s o subs b1 hl
        simp only at h
        cases hc : chainAll (chain path isPath n) (subs' ++ [last]) with
        | error e => rw [hc] at h; cases h
        | ok subs2 =>
          rw [hc] at h
          simp only [Except.ok.injEq] at h
          subst h
          have := (chainAll_ok _ _ _ hc).imp (fun b _ b' hb => ih b b' hb)
          simp only [shape]
          rw [each_shapes this, hs]

theorem chain_chained (path : O → P) (isPath : P → Bool) (n : Nat) (b b' : B P O C) (h : chain path isPath n b = .ok b')
    (hne : paramsOf b ≠ []) : Chained path isPath b' := by
  induction n generalizing b b' with
  | zero =>
    cases b with
    | leaf k s o => simp only [chain, Except.ok.injEq] at h; subst h; exact .leaf ..
    | seq => simp [chain] at h
  | succ n ih =>
    cases b with
    | leaf k s o => simp only [chain, Except.ok.injEq] at h; subst h; exact .leaf ..
    | seq k i f s o subs =>
      simp only [chain] at h
      cases hl : level path isPath (.seq k i f s o subs) with
      | error e => rw [hl] at h; cases h
      | ok b1 =>
        rw [hl] at h
        obtain ⟨o', subs', last, rfl, hlink, hcopy, hs, -⟩ := level_ok path isPath k i f s o subs b1 hl
        simp only at h
        cases hc : chainAll (chain path isPath n) (subs' ++ [last]) with
        | error e => rw [hc] at h; cases h
        | ok subs2 =>
          rw [hc] at h
          simp only [Except.ok.injEq] at h
          subst h
          have hlink := hlink hne
          have hnon : Lists.uniq id (s ++ k.extra s) ≠ [] := by
            intro he
            obtain ⟨x, xs, hx⟩ := List.exists_cons_of_ne_nil hne
            have := (Lists.mem_uniq (s ++ k.extra s) x).2 (by simp only [paramsOf] at hx; rw [hx]; simp)
            rw [he] at this; cases this
          have houts : ∀ b ∈ subs' ++ [last], (∃ x, outOf b = some x) ∧ paramsOf b ≠ [] := by
            have gen : ∀ (given : List P) (l : List (B P O C)), given ≠ [] → Linked path isPath given l → ∀ b ∈ l, (∃ x, outOf b = some x) ∧ paramsOf b ≠ [] := by
              intro given l hg hl
              induction hl with
              | nil => intro b hb; cases hb
              | cons given b x ps bs h1 h2 h3 _ _ ih2 =>
                intro b' hb'
                rcases List.mem_cons.1 hb' with rfl | hb'
                · refine ⟨⟨x, h2⟩, ?_⟩
                  cases b' with
                  | leaf => simp only [storedOf] at h1; subst h1; simp [paramsOf, hg]
                  | seq => simp only [storedOf] at h1; subst h1; simp [paramsOf, hg]
                · exact ih2 (by simp) b' hb'
            exact gen _ _ hnon hlink
          have heach := chainAll_ok _ _ _ hc
          have hkept : Each Kept (subs' ++ [last]) subs2 := heach.imp (fun b hb b' hb' => by
            obtain ⟨k1, k2, k3, k4, k5⟩ := chain_kept path isPath n b b' hb'
            obtain ⟨⟨x, hx⟩, -⟩ := houts b hb
            exact ⟨k1, k2, by rw [hx, k4 x hx], k3, k5⟩)
          obtain ⟨l', b2, rfl, -, hb2⟩ := hkept.snoc
          refine .seq k i f s o' l' b2 _ (once_uniq _) (linked_kept path isPath _ _ _ hlink hkept) ?_ ?_
          · intro hcp
            rw [hb2.2.2.2.1] at hcp
            obtain ⟨x, h1, h2⟩ := hcopy hcp
            exact ⟨x, h1, by rw [hb2.2.2.1, h2]⟩
          · intro b' hb'
            obtain ⟨b, hb, hbb⟩ := heach.mem b' hb'
            exact ih b b' hbb (houts b hb).2

/-! ### Success -/

omit [DecidableEq P] in
theorem chainAll_iff (f : B P O C → Except Err (B P O C)) (bs : List (B P O C)) :
    (∃ bs', chainAll f bs = .ok bs') ↔ ∀ b ∈ bs, ∃ b', f b = .ok b' := by
  induction bs with
  | nil => simp [chainAll]
  | cons b bs ih =>
    simp only [chainAll, List.mem_cons, forall_eq_or_imp, ← ih]
    cases hb : f b with
    | error e => simp
    | ok b1 =>
      cases hbs : chainAll f bs with
      | error e => simp
      | ok bs1 => simp

theorem level_iff (path : O → P) (isPath : P → Bool) (k : Kind P O C) (i : Option Nat) (f : O → Option O → O) (s : List P) (o : Option O)
    (subs : List (B P O C)) : (∃ b', level path isPath (.seq k i f s o subs) = .ok b') ↔ subs ≠ [] := by
  simp only [level]
  have hne := link_ne path isPath (B.parameters (.seq k i f s o subs)) subs
  generalize link path isPath (B.parameters (.seq k i f s o subs)) subs = ls at hne
  cases hl : ls.getLast? with
  | none =>
    rw [List.getLast?_eq_none_iff] at hl
    simp [hne.1 hl]
  | some last =>
    have : ls ≠ [] := by rintro rfl; simp at hl
    have hs : subs ≠ [] := fun h => this (hne.2 h)
    simp only [hs, ne_eq, not_false_eq_true, iff_true]
    cases last.isCopy with
    | false => exact ⟨_, rfl⟩
    | true =>
      simp only [if_true]
      split <;> exact ⟨_, rfl⟩

theorem le_levelsAll (l : List (Shape C)) (n : Nat) : levelsAll l ≤ n ↔ ∀ b ∈ l, levels b ≤ n := by
  induction l with
  | nil => simp [levelsAll]
  | cons b l ih => simp only [levelsAll, List.mem_cons, forall_eq_or_imp, ← ih, Nat.max_le]

theorem chain_iff (path : O → P) (isPath : P → Bool) (n : Nat) (b : B P O C) :
    (∃ b', chain path isPath n b = .ok b') ↔ NoneEmpty (shape b) ∧ levels (shape b) ≤ n := by
  induction n generalizing b with
  | zero =>
    cases b with
    | leaf k s o => simp only [chain, shape, levels]; exact ⟨fun _ => ⟨.one .., Nat.le_refl _⟩, fun _ => ⟨_, rfl⟩⟩
    | seq => simp [chain, shape, levels]
  | succ n ih =>
    cases b with
    | leaf k s o => simp only [chain, shape, levels]; exact ⟨fun _ => ⟨.one .., by omega⟩, fun _ => ⟨_, rfl⟩⟩
    | seq k i f s o subs =>
      have key : ∀ l : List (B P O C), (∃ l', chainAll (chain path isPath n) l = .ok l') ↔
          (∀ b ∈ shapes l, NoneEmpty b) ∧ levelsAll (shapes l) ≤ n := by
        intro l
        rw [chainAll_iff, le_levelsAll, shapes_eq]
        simp only [List.mem_map, forall_exists_index, and_imp, forall_apply_eq_imp_iff₂, ih]
        exact ⟨fun h => ⟨fun b hb => (h b hb).1, fun b hb => (h b hb).2⟩, fun h b hb => ⟨h.1 b hb, h.2 b hb⟩⟩
      simp only [chain]
      cases hl : level path isPath (.seq k i f s o subs) with
      | error e =>
        have := (level_iff path isPath k i f s o subs)
        rw [hl] at this
        have hs : subs = [] := by
          apply Classical.byContradiction
          intro h
          obtain ⟨b', hb'⟩ := this.2 h
          cases hb'
        subst hs
        simp only [reduceCtorEq, exists_false, false_iff]
        rintro ⟨h, -⟩
        simp only [shape, shapes] at h
        cases h with
        | parts l h1 h2 => exact h1 rfl
      | ok b1 =>
        have hs := (level_iff path isPath k i f s o subs).1 ⟨b1, hl⟩
        obtain ⟨o', subs', last, rfl, -, -, hsh, -⟩ := level_ok path isPath k i f s o subs b1 hl
        simp only
        have key := key (subs' ++ [last])
        rw [hsh] at key
        have goal : (∃ l', chainAll (chain path isPath n) (subs' ++ [last]) = .ok l') ↔
            NoneEmpty (shape (.seq k i f s o subs)) ∧ levels (shape (.seq k i f s o subs)) ≤ n + 1 := by
          rw [key]
          simp only [shape, levels, Nat.add_le_add_iff_right]
          refine and_congr_left' ⟨fun h => .parts _ ?_ h, fun h => ?_⟩
          · cases subs with
            | nil => exact absurd rfl hs
            | cons => simp [shapes]
          · cases h with
            | parts l h1 h2 => exact h2
        rw [← goal]
        cases chainAll (chain path isPath n) (subs' ++ [last]) with
        | error e => simp
        | ok l => simp

/-! ### Running -/

omit [DecidableEq P] in
theorem stepsAll_snoc (l : List (Shape C)) (b : Shape C) : stepsAll (l ++ [b]) = stepsAll l ++ steps b := by
  induction l with
  | nil => simp [stepsAll]
  | cons a l ih => simp [stepsAll, ih]

end Verif.Chain
