import Verif.Spec.Links
import Verif.Spec.Paths
import Verif.Lemmas.Strings

/-!
# Lemmas on links
-/

namespace Verif.Links

open Verif Verif.Paths

theorem walk_norm (l d : List Str) (h : ∀ c ∈ l, c ≠ ['.']) : Walk d l (l.foldl normStep d) := by
  induction l generalizing d with
  | nil => exact .here d
  | cons c l ih =>
    rw [List.foldl_cons]
    have hl := fun x hx => h x (List.mem_cons_of_mem _ hx)
    by_cases hc : c = ['.', '.']
    · subst hc
      rw [normStep, if_pos rfl]
      rcases List.eq_nil_or_concat d with rfl | ⟨d', x, rfl⟩
      · exact .top (ih [] hl)
      · rw [List.concat_eq_append, List.dropLast_concat]
        exact .up x (ih d' hl)
    · rw [normStep, if_neg hc]
      exact .down c (h c (List.mem_cons_self ..)) hc (ih _ hl)

theorem Walk.det {d l e e' : List Str} (h : Walk d l e) (h' : Walk d l e') : e = e' := by
  induction h generalizing e' with
  | here d => cases h'; rfl
  | stay _ ih =>
    cases h' with
    | stay h => exact ih h
    | down n h1 _ _ => exact absurd rfl h1
  | @up d l e x _ ih =>
    generalize hg : d ++ [x] = g at h'
    cases h' with
    | up y h =>
      obtain ⟨rfl, _⟩ := List.append_inj' hg rfl
      exact ih h
    | top h => simp at hg
    | down n _ h2 _ => exact absurd rfl h2
  | top _ ih =>
    generalize hg : ([] : List Str) = g at h'
    cases h' with
    | up y h => simp at hg
    | top h => exact ih h
    | down n _ h2 _ => exact absurd rfl h2
  | @down d l e n h1 h2 _ ih =>
    cases h' with
    | stay h => exact absurd rfl h1
    | up y h => exact absurd rfl h2
    | top h => exact absurd rfl h2
    | down m _ _ h => exact ih h

theorem norm_names (l d : List Str) (P : Str → Prop) (hl : ∀ c ∈ l, P c) (hd : ∀ c ∈ d, P c ∧ c ≠ ['.', '.']) :
    ∀ c ∈ l.foldl normStep d, P c ∧ c ≠ ['.', '.'] := by
  induction l generalizing d with
  | nil => exact hd
  | cons c l ih =>
    rw [List.foldl_cons]
    refine ih _ (fun x hx => hl x (List.mem_cons_of_mem _ hx)) ?_
    intro x hx
    unfold normStep at hx
    split at hx
    · exact hd x (List.dropLast_subset _ hx)
    · rename_i hc
      rw [List.mem_append, List.mem_singleton] at hx
      rcases hx with hx | rfl
      · exact hd x hx
      · exact ⟨hl _ (List.mem_cons_self ..), hc⟩

theorem absParts_names (cwd : List Str) (p : Path) (hc : ∀ c ∈ cwd, IsName c) (hp : Good p) :
    ∀ c ∈ absParts cwd p, IsName c ∧ c ≠ ['.', '.'] := by
  refine norm_names _ _ IsName ?_ (by simp)
  intro c h
  rw [List.mem_append] at h
  rcases h with h | h
  · split at h
    · simp at h
    · exact hc c h
  · exact hp c h

theorem absParts_at (cwd : List Str) (p : Path) (hc : ∀ c ∈ cwd, IsName c) (hp : Good p) :
    At cwd p (absParts cwd p) := by
  refine walk_norm _ _ ?_
  intro c h
  rw [List.mem_append] at h
  rcases h with h | h
  · split at h
    · simp at h
    · exact (hc c h).2.1
  · exact (hp c h).2.1

theorem commonLen_spec (s p : List Str) : ∃ c s' p', s = c ++ s' ∧ p = c ++ p' ∧ c.length = commonLen s p := by
  induction s generalizing p with
  | nil => exact ⟨[], [], p, rfl, rfl, by cases p <;> rfl⟩
  | cons a s ih =>
    cases p with
    | nil => exact ⟨[], a :: s, [], rfl, rfl, rfl⟩
    | cons b p =>
      by_cases h : a = b
      · subst h
        obtain ⟨c, s', p', h1, h2, h3⟩ := ih p
        exact ⟨a :: c, s', p', by rw [h1]; rfl, by rw [h2]; rfl, by rw [commonLen, if_pos rfl, List.length_cons, h3]⟩
      · exact ⟨[], a :: s, b :: p, rfl, rfl, by rw [commonLen, if_neg h]; rfl⟩

theorem walk_up (c s' l e : List Str) (h : Walk c l e) :
    Walk (c ++ s') (List.replicate s'.length ['.', '.'] ++ l) e := by
  induction hn : s'.length generalizing s' with
  | zero =>
    rw [List.length_eq_zero_iff] at hn
    subst hn
    rw [List.append_nil]; exact h
  | succ n ih =>
    rcases List.eq_nil_or_concat s' with rfl | ⟨t, x, rfl⟩
    · simp at hn
    · rw [List.concat_eq_append] at hn ⊢
      rw [← List.append_assoc, List.replicate_succ, List.cons_append]
      refine .up x (ih t ?_)
      simpa using hn

theorem walk_down (c p' : List Str) (h : ∀ n ∈ p', n ≠ ['.'] ∧ n ≠ ['.', '.']) : Walk c p' (c ++ p') := by
  induction p' generalizing c with
  | nil => rw [List.append_nil]; exact .here c
  | cons n p ih =>
    obtain ⟨h1, h2⟩ := h n (List.mem_cons_self ..)
    refine .down n h1 h2 ?_
    have := ih (c ++ [n]) (fun m hm => h m (List.mem_cons_of_mem _ hm))
    rwa [List.append_assoc] at this

theorem relParts_walk (s p : List Str) (h : ∀ n ∈ p, n ≠ ['.'] ∧ n ≠ ['.', '.']) : Walk s (relParts s p) p := by
  obtain ⟨c, s', p', h1, h2, h3⟩ := commonLen_spec s p
  unfold relParts
  rw [← h3, h1, h2, List.length_append, Nat.add_sub_cancel_left, List.drop_left]
  refine walk_up c s' p' _ (walk_down c p' ?_)
  intro n hn
  exact h n (by rw [h2]; exact List.mem_append_right _ hn)

theorem relParts_names (s p : List Str) (P : Str → Prop) (hd : P ['.', '.']) (h : ∀ n ∈ p, P n) :
    ∀ n ∈ relParts s p, P n := by
  intro n hn
  unfold relParts at hn
  rw [List.mem_append] at hn
  rcases hn with hn | hn
  · rw [(List.mem_replicate.1 hn).2]; exact hd
  · exact h n (List.mem_of_mem_drop hn)

theorem slashed_join (l : List Str) (hne : l ≠ []) (h : ∀ n ∈ l, '/' ∉ n) : Slashed (join ['/'] l) l := by
  induction l with
  | nil => exact absurd rfl hne
  | cons a l ih =>
    cases l with
    | nil => exact .one a (h a (List.mem_cons_self ..))
    | cons b l =>
      have : join ['/'] (a :: b :: l) = a ++ '/' :: join ['/'] (b :: l) := by simp [join]
      rw [this]
      exact .cons a _ _ (h a (List.mem_cons_self ..)) (ih (by simp) (fun n hn => h n (List.mem_cons_of_mem _ hn)))

/-- The names of a text are determined. -/
theorem Slashed.det {s : Str} {l l' : List Str} (h : Slashed s l) (h' : Slashed s l') : l = l' := by
  have key : ∀ (s : Str) (l : List Str), Slashed s l → split ['/'] s = l := by
    intro s l h
    induction h with
    | one s hs => exact split_of_not_infix _ _ (by simp) (by
        rintro ⟨a, b, rfl⟩; simp at hs)
    | cons s r l hs _ ih =>
      have := split_append ['/'] s r (by simp) (by
        rintro x y rfl hy ⟨t, ht⟩
        match y, hy with
        | c :: y, _ =>
          simp at ht
          obtain ⟨rfl, _⟩ := ht
          simp at hs)
      rw [List.singleton_append] at this
      rw [this, ih]
  rw [← key s l h, ← key s l' h']

/-- `dblSlash` leaves a text without `//` alone. -/
theorem dblSlash_id (s : Str) (h : ¬ ['/', '/'] <:+: s) (prev : Option Char) : dblSlash prev s = s := by
  match s with
  | [] => rfl
  | [c] => rfl
  | c :: d :: t =>
    rw [dblSlash, if_neg]
    · congr 1
      exact dblSlash_id (d :: t) (fun hh => h (hh.trans ⟨[c], [], by simp⟩)) _
    · rintro ⟨rfl, rfl, _⟩
      exact h ⟨[], t, rfl⟩
termination_by s.length

theorem join_no_dbl (l : List Str) (h : ∀ n ∈ l, n ≠ [] ∧ '/' ∉ n) : ¬ ['/', '/'] <:+: join ['/'] l := by
  have key : ∀ (n r : Str), '/' ∉ n → ¬ ['/', '/'] <:+: r → ¬ ['/', '/'] <:+: n ++ r ∨ (∃ t, r = '/' :: '/' :: t) := by
    intro n r hn hr
    left
    induction n with
    | nil => exact hr
    | cons c n ih =>
      simp only [List.mem_cons, not_or] at hn
      intro hh
      rw [List.cons_append, List.infix_cons_iff] at hh
      rcases hh with hh | hh
      · rw [List.cons_prefix_cons] at hh
        exact hn.1 hh.1
      · exact ih hn.2 hh
  induction l with
  | nil => simp [join]
  | cons a l ih =>
    obtain ⟨ha, hs⟩ := h a (List.mem_cons_self ..)
    cases l with
    | nil =>
      simp only [join]
      rintro ⟨x, y, rfl⟩
      simp at hs
    | cons b l =>
      have e : join ['/'] (a :: b :: l) = a ++ '/' :: join ['/'] (b :: l) := by simp [join]
      have hh := ih (fun n hn => h n (List.mem_cons_of_mem _ hn))
      rw [e]
      have h2 : ¬ ['/', '/'] <:+: '/' :: join ['/'] (b :: l) := by
        rw [List.infix_cons_iff]
        rintro (hp | hi)
        · rw [List.cons_prefix_cons] at hp
          obtain ⟨hb, hsb⟩ := h b (by simp)
          have : ∃ c t, join ['/'] (b :: l) = c :: t ∧ c ∈ b := by
            cases b with
            | nil => exact absurd rfl hb
            | cons c b => cases l <;> exact ⟨c, _, rfl, List.mem_cons_self ..⟩
          obtain ⟨c, t, h1, h2⟩ := this
          rw [h1, List.cons_prefix_cons] at hp
          rw [← hp.2.1] at h2
          exact hsb h2
        · exact hh hi
      rcases key a _ hs h2 with h3 | ⟨t, h3⟩
      · exact h3
      · exact absurd ⟨[], t, by rw [h3]; rfl⟩ h2

theorem join_last (l : List Str) (hne : l ≠ []) (h : ∀ n ∈ l, n ≠ [] ∧ '/' ∉ n) :
    ∃ s c, join ['/'] l = s ++ [c] ∧ c ≠ '/' := by
  induction l with
  | nil => exact absurd rfl hne
  | cons a l ih =>
    obtain ⟨ha, hs⟩ := h a (List.mem_cons_self ..)
    cases l with
    | nil =>
      rcases List.eq_nil_or_concat a with rfl | ⟨s, c, rfl⟩
      · exact absurd rfl ha
      · refine ⟨s, c, by simp [join], ?_⟩
        rintro rfl
        simp at hs
    | cons b l =>
      obtain ⟨s, c, h1, h2⟩ := ih (by simp) (fun n hn => h n (List.mem_cons_of_mem _ hn))
      exact ⟨a ++ '/' :: s, c, by simp [join] at h1 ⊢; exact h1, h2⟩

theorem rstrip_slash (s : Str) (c : Char) (h : c ≠ '/') : rstrip (· = '/') (s ++ [c]) = s ++ [c] := by
  simp [rstrip, h]

theorem cleanup_join (l : List Str) (hne : l ≠ []) (h : ∀ n ∈ l, n ≠ [] ∧ '/' ∉ n) :
    dblSlash none (rstrip (· = '/') (join ['/'] l)) = join ['/'] l := by
  obtain ⟨s, c, h1, h2⟩ := join_last l hne h
  rw [h1, rstrip_slash s c h2, ← h1]
  exact dblSlash_id _ (join_no_dbl l h) _

end Verif.Links
