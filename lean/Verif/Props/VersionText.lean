import Verif.Spec.VersionText
import Verif.Lemmas.Checkers

/-!
# C108: the text of a version
-/

namespace Verif.VersionText

open Verif Verif.VersionText.Spec

/-! ### Lemmas -/

theorem digits_inj (a b : Nat) (h : Nat.toDigits 10 a = Nat.toDigits 10 b) : a = b := by
  rw [← Checkers.foldl_toDigits a, h, Checkers.foldl_toDigits]

/-- What follows a number in a text: nothing, or a character that is no digit. -/
def Stops (r : Str) : Prop := ∀ c, r.head? = some c → c.isDigit = false

theorem split_digits (d d' r r' : Str) (hd : ∀ c ∈ d, c.isDigit = true) (hd' : ∀ c ∈ d', c.isDigit = true) (hr : Stops r)
    (hr' : Stops r') (h : d ++ r = d' ++ r') : d = d' ∧ r = r' := by
  induction d generalizing d' with
  | nil =>
    cases d' with
    | nil => exact ⟨rfl, h⟩
    | cons c d' =>
      have := hr c (by rw [show r = c :: d' ++ r' from h]; rfl)
      rw [hd' c (by simp)] at this; cases this
  | cons a d ih =>
    cases d' with
    | nil =>
      have := hr' a (by rw [← show a :: d ++ r = r' from h]; rfl)
      rw [hd a (by simp)] at this; cases this
    | cons c d' =>
      simp only [List.cons_append, List.cons.injEq] at h
      obtain ⟨h1, h2⟩ := ih d' (fun x hx => hd x (by simp [hx])) (fun x hx => hd' x (by simp [hx])) h.2
      exact ⟨by rw [h.1, h1], h2⟩

theorem split_numbers (a b : Nat) (r r' : Str) (hr : Stops r) (hr' : Stops r') (h : Nat.toDigits 10 a ++ r = Nat.toDigits 10 b ++ r') :
    a = b ∧ r = r' := by
  obtain ⟨h1, h2⟩ := split_digits _ _ _ _ (Checkers.digits_all a) (Checkers.digits_all b) hr hr' h
  exact ⟨digits_inj _ _ h1, h2⟩

theorem digits_head (n : Nat) : ∃ c t, Nat.toDigits 10 n = c :: t ∧ c.isDigit = true := by
  cases h : Nat.toDigits 10 n with
  | nil =>
    have h0 := Checkers.foldl_toDigits n
    rw [h] at h0
    have : n = 0 := h0.symm
    subst this
    exact absurd h (by decide)
  | cons c t => exact ⟨c, t, rfl, Checkers.digits_all n c (by rw [h]; simp)⟩

/-- The part of the text for the update, and that for the type and the number. -/
def updateText (u : Nat) : Str := if 0 < u then '.' :: Nat.toDigits 10 u else []
def preText (k : Kind) (n : Nat) : Str := k.letters ++ if k ≠ .final ∧ 0 < n then Nat.toDigits 10 n else []

theorem mapping_word (k : Kind) : mapping (.text k.word) = some k.letters := by cases k <;> decide

theorem str_nat (n : Nat) : str (.num n) = Nat.toDigits 10 n := by
  have : ¬ ((n : Int) < 0) := by omega
  simp [str, this]

theorem getVersion_tuple (v : Version) : getVersion v.tuple =
    .ok (Nat.toDigits 10 v.major ++ '.' :: (Nat.toDigits 10 v.minor ++ (updateText v.update ++ preText v.kind v.number))) := by
  obtain ⟨a, b, u, k, n⟩ := v
  simp only [Version.tuple, getVersion, mapping_word, positive, str_nat, bind, Except.bind]
  unfold updateText preText
  have hu : ((u : Int) > 0) ↔ 0 < u := by omega
  have hn : ((n : Int) > 0) ↔ 0 < n := by omega
  have hk : (Item.text k.word = .text "final".toList) ↔ k = .final := by cases k <;> decide
  simp only [hu, hn, hk, decide_eq_true_eq]
  by_cases h1 : 0 < u <;> by_cases h2 : k = .final <;> by_cases h3 : 0 < n <;> simp [h1, h2, h3]

theorem pre_stops (k : Kind) (n : Nat) : Stops (preText k n) := by
  intro c h
  cases k with
  | final => simp [preText, Kind.letters] at h
  | alpha => simp [preText, Kind.letters] at h; subst h; decide
  | beta => simp [preText, Kind.letters] at h; subst h; decide
  | rc => simp [preText, Kind.letters] at h; subst h; decide

theorem pre_no_dot (k : Kind) (n : Nat) : (preText k n).head? ≠ some '.' := by
  cases k <;> simp [preText, Kind.letters]

theorem number_inj (m n : Nat) (h : (if 0 < m then Nat.toDigits 10 m else []) = (if 0 < n then Nat.toDigits 10 n else [])) :
    m = n := by
  obtain ⟨c, t, e, _⟩ := digits_head m
  obtain ⟨c', t', e', _⟩ := digits_head n
  split at h
  · split at h
    · exact digits_inj _ _ h
    · rw [e] at h; cases h
  · split at h
    · rw [e'] at h; cases h
    · omega

theorem pre_inj (k k' : Kind) (m n : Nat) (h : preText k m = preText k' n) : k = k' ∧ (k ≠ .final → m = n) := by
  have hk : k = k' := by
    have := congrArg List.head? h
    cases k <;> cases k' <;> simp [preText, Kind.letters] at this ⊢
  subst hk
  refine ⟨rfl, fun hf => ?_⟩
  have := List.append_cancel_left h
  simp only [hf, ne_eq, not_false_eq_true, true_and] at this
  exact number_inj m n this

theorem update_stops (u : Nat) (r : Str) (hr : Stops r) : Stops (updateText u ++ r) := by
  unfold updateText
  split
  · intro c h; simp at h; subst h; decide
  · exact hr

/-! ### Theorems -/

/-- Versions with the same text are the same, but for the number of a final release. -/
theorem C108_distinct (v w : Version) (h : getVersion v.tuple = getVersion w.tuple) :
    v.major = w.major ∧ v.minor = w.minor ∧ v.update = w.update ∧ v.kind = w.kind ∧ (v.kind ≠ .final → v.number = w.number) := by
  rw [getVersion_tuple, getVersion_tuple] at h
  have h := Except.ok.inj h
  have dot : ∀ t : Str, Stops ('.' :: t) := fun t c hc => by simp at hc; subst hc; decide
  obtain ⟨h1, h⟩ := split_numbers _ _ _ _ (dot _) (dot _) h
  have h := (List.cons.inj h).2
  obtain ⟨h2, h⟩ := split_numbers _ _ _ _ (update_stops _ _ (pre_stops _ _)) (update_stops _ _ (pre_stops _ _)) h
  have key : v.update = w.update ∧ preText v.kind v.number = preText w.kind w.number := by
    unfold updateText at h
    split at h
    · split at h
      · simp only [List.cons_append] at h
        exact split_numbers _ _ _ _ (pre_stops _ _) (pre_stops _ _) (List.cons.inj h).2
      · exact absurd (by rw [← show _ = preText w.kind w.number from h]; rfl) (pre_no_dot w.kind w.number)
    · split at h
      · exact absurd (by rw [show preText v.kind v.number = _ from h]; rfl) (pre_no_dot v.kind v.number)
      · exact ⟨by omega, h⟩
  obtain ⟨h3, h⟩ := key
  obtain ⟨h4, h5⟩ := pre_inj _ _ _ _ h
  exact ⟨h1, h2, h3, h4, h5⟩

/-- The number of a final release is not in its text. -/
theorem C108_final (a b u m n : Nat) : getVersion (Version.mk a b u .final m).tuple = getVersion (Version.mk a b u .final n).tuple := by
  rw [getVersion_tuple, getVersion_tuple]
  simp [preText]

/-- The text of a version is an identifier of PEP 440. -/
theorem C108_pep440 (v : Version) : ∃ s, getVersion v.tuple = .ok s ∧ Pep440 s := by
  refine ⟨_, getVersion_tuple v, ?_⟩
  refine ⟨if 0 < v.update then [v.major, v.minor, v.update] else [v.major, v.minor], v.kind,
    if v.kind ≠ .final ∧ 0 < v.number then some v.number else none, ?_, ?_, ?_⟩
  · split <;> simp
  · intro h; simp [h]
  · unfold updateText preText
    by_cases h1 : 0 < v.update <;> by_cases h2 : v.kind ≠ .final ∧ 0 < v.number <;>
      simp [h1, h2, List.intercalate, List.intersperse]

/-- The version of the program, and those of the documentation. -/
example : (getVersion (Version.mk 2 3 9 .final 0).tuple).toOption = some "2.3.9".toList ∧
    (getVersion (Version.mk 2 1 0 .final 3).tuple).toOption = some "2.1".toList ∧
    (getVersion (Version.mk 2 1 0 .rc 3).tuple).toOption = some "2.1rc3".toList ∧
    (getVersion (Version.mk 2 1 2 .alpha 1).tuple).toOption = some "2.1.2a1".toList := by decide +kernel

/-- The parts are in the text in their order: major and minor number, the update if there is one, and for a release that is
not final the letters of its type with its number if there is one. -/
theorem C108_parts (a b u n : Nat) (k : Kind) (hu : 0 < u) (hn : 0 < n) (hk : k ≠ .final) :
    getVersion (Version.mk a b 0 .final n).tuple = .ok (Nat.toDigits 10 a ++ ".".toList ++ Nat.toDigits 10 b) ∧
    getVersion (Version.mk a b u .final n).tuple =
      .ok (Nat.toDigits 10 a ++ ".".toList ++ Nat.toDigits 10 b ++ ".".toList ++ Nat.toDigits 10 u) ∧
    getVersion (Version.mk a b 0 k n).tuple =
      .ok (Nat.toDigits 10 a ++ ".".toList ++ Nat.toDigits 10 b ++ k.letters ++ Nat.toDigits 10 n) ∧
    getVersion (Version.mk a b u k n).tuple =
      .ok (Nat.toDigits 10 a ++ ".".toList ++ Nat.toDigits 10 b ++ ".".toList ++ Nat.toDigits 10 u ++ k.letters ++ Nat.toDigits 10 n) ∧
    getVersion (Version.mk a b 0 k 0).tuple =
      .ok (Nat.toDigits 10 a ++ ".".toList ++ Nat.toDigits 10 b ++ k.letters) := by
  refine ⟨?_, ?_, ?_, ?_, ?_⟩ <;> rw [getVersion_tuple] <;> simp [updateText, preText, hu, hn, hk, Kind.letters]

/-- A tuple that has not five items, or whose fourth item is none of the four words, is refused. -/
theorem C108_refused (l : List Item) (h : l.length ≠ 5 ∨ ∀ k : Kind, l[3]? ≠ some (.text k.word)) :
    getVersion l = .error .assertion := by
  unfold getVersion
  split
  · rename_i major minor update kind number
    have hm : mapping kind = none := by
      rcases h with h | h
      · exact absurd rfl h
      · have hk : ∀ k : Kind, kind ≠ .text k.word := fun k e => h k (by rw [e]; rfl)
        cases kind with
        | num n => rfl
        | text s =>
          have h1 : s ≠ "final".toList := fun e => hk .final (by rw [e]; rfl)
          have h2 : s ≠ "alpha".toList := fun e => hk .alpha (by rw [e]; rfl)
          have h3 : s ≠ "beta".toList := fun e => hk .beta (by rw [e]; rfl)
          have h4 : s ≠ "rc".toList := fun e => hk .rc (by rw [e]; rfl)
          simp only [mapping]
          rw [if_neg h1, if_neg h2, if_neg h3, if_neg h4]
    rw [hm]
  · rfl

example : ∀ k : Kind, [Item.num 2, .num 1, .num 0, .text "release".toList, .num 0][3]? ≠ some (.text k.word) := by
  intro k; cases k <;> decide

/-- So is, with another exception, a text for the update, or for the number of a release that is not final. -/
theorem C108_types (x y z : Item) (k : Kind) (s : Str) :
    getVersion [x, y, .text s, .text k.word, z] = .error .type ∧
    (k ≠ .final → ∀ n : Int, getVersion [x, y, .num n, .text k.word, .text s] = .error .type) := by
  have hk : (Item.text k.word = .text "final".toList) ↔ k = .final := by cases k <;> decide
  constructor
  · simp only [getVersion, mapping_word, positive, bind, Except.bind]
  · intro h n
    simp only [getVersion, mapping_word, positive, bind, Except.bind, hk, h, if_false]

/-- Finding: nothing refuses an update below zero, which is left out: the text is that of another version. -/
theorem C108_negative_refuted (a b n : Nat) (k : Kind) (u : Int) (h : u < 0) :
    getVersion [.num a, .num b, .num u, .text k.word, .num n] = getVersion (Version.mk a b 0 k n).tuple := by
  have : ¬ (u > 0) := by omega
  simp only [Version.tuple, getVersion, mapping_word, positive, bind, Except.bind, this]
  simp

theorem pep440_head (s : Str) (h : Pep440 s) : ∃ c t, s = c :: t ∧ c.isDigit = true := by
  obtain ⟨release, kind, number, hr, _, rfl⟩ := h
  cases release with
  | nil => exact absurd rfl hr
  | cons n l =>
    obtain ⟨c, t, e, hc⟩ := digits_head n
    cases l with
    | nil => exact ⟨c, _, by simp only [List.map_cons, List.map_nil, List.intercalate, List.intersperse, List.flatten_cons, e]; rfl, hc⟩
    | cons m l => exact ⟨c, _, by simp only [List.map_cons, List.intercalate, List.intersperse, List.flatten_cons, e]; rfl, hc⟩

/-- Finding: nor is a major number below zero refused: it is written with its sign, and the text is no identifier of
PEP 440. -/
theorem C108_sign_refuted (a b u n : Nat) (k : Kind) (h : 0 < a) : ∃ t,
    getVersion [.num (-a), .num b, .num u, .text k.word, .num n] = .ok ('-' :: t) ∧
    getVersion (Version.mk a b u k n).tuple = .ok t ∧ ¬ Pep440 ('-' :: t) := by
  have hs : str (.num (-(a : Int))) = '-' :: Nat.toDigits 10 a := by
    have h1 : -(a : Int) < 0 := by omega
    have h2 : (-(a : Int)).natAbs = a := by omega
    simp only [str, if_pos h1, h2]
  refine ⟨_, ?_, getVersion_tuple _, ?_⟩
  · have hk : (Item.text k.word = .text "final".toList) ↔ k = .final := by cases k <;> decide
    have hu : ((u : Int) > 0) ↔ 0 < u := by omega
    have hn : ((n : Int) > 0) ↔ 0 < n := by omega
    simp only [getVersion, mapping_word, positive, hs, str_nat, bind, Except.bind, hu, hn, hk, decide_eq_true_eq]
    unfold updateText preText
    by_cases h1 : 0 < u <;> by_cases h2 : k = .final <;> by_cases h3 : 0 < n <;> simp [h1, h2, h3]
  · intro hp
    obtain ⟨c, t, e, hc⟩ := pep440_head _ hp
    rw [← (List.cons.inj e).1] at hc
    revert hc; decide

/-- Finding: nothing refuses words for the first two numbers either. -/
theorem C108_words_refuted (s t : Str) : getVersion [.text s, .text t, .num 0, .text "final".toList, .num 0] = .ok (s ++ ".".toList ++ t) := by
  simp [getVersion, mapping, positive, str, bind, Except.bind]

end Verif.VersionText
