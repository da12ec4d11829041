import Verif.Model.ParentPaths
import Verif.Spec.ParentPaths

/-!
# C106: the parents of a path
-/

namespace Verif.ParentPaths

open Verif Verif.ParentPaths.Spec

/-! ### Lemmas -/

theorem dropWhile_append' (f : Char → Bool) (l r : Str) :
    (l ++ r).dropWhile f = if l.dropWhile f = [] then r.dropWhile f else l.dropWhile f ++ r := by
  induction l with
  | nil => simp
  | cons a l ih =>
    by_cases h : f a
    · simp only [List.cons_append, List.dropWhile_cons, h, if_true]; exact ih
    · simp [List.dropWhile_cons, h]

theorem dropWhile_nil (f : Char → Bool) (l : Str) : l.dropWhile f = [] ↔ ∀ x ∈ l, f x = true := by
  induction l with
  | nil => simp
  | cons a l ih =>
    by_cases h : f a
    · simp [List.dropWhile_cons, h, ih]
    · simp [List.dropWhile_cons, h]

theorem takeWhile_append' (f : Char → Bool) (l r : Str) (h : ∀ x ∈ l, f x = true) :
    (l ++ r).takeWhile f = l ++ r.takeWhile f := by
  induction l with
  | nil => rfl
  | cons a l ih =>
    simp only [List.cons_append, List.takeWhile_cons, h a (by simp), if_true]
    rw [ih fun x hx => h x (by simp [hx])]

theorem mem_takeWhile' (f : Char → Bool) (l : Str) (x : Char) (h : x ∈ l.takeWhile f) : f x = true := by
  induction l with
  | nil => cases h
  | cons a l ih =>
    by_cases ha : f a
    · simp only [List.takeWhile_cons, ha, if_true, List.mem_cons] at h
      rcases h with rfl | h
      · exact ha
      · exact ih h
    · simp [List.takeWhile_cons, ha] at h

theorem upTo_slash (a b : Str) (h : '/' ∉ b) : upTo (a ++ '/' :: b) = a ++ ['/'] := by
  have hb : b.reverse.dropWhile (· != '/') = [] := by
    rw [dropWhile_nil]; intro x hx
    have : x ≠ '/' := fun e => h (by rw [← e]; simpa using hx)
    simpa using this
  unfold upTo
  rw [List.reverse_append, List.reverse_cons, List.append_assoc, dropWhile_append', if_pos hb]
  simp [List.dropWhile_cons]

theorem upTo_none (b : Str) (h : '/' ∉ b) : upTo b = [] := by
  have hb : b.reverse.dropWhile (· != '/') = [] := by
    rw [dropWhile_nil]; intro x hx
    have : x ≠ '/' := fun e => h (by rw [← e]; simpa using hx)
    simpa using this
  unfold upTo; rw [hb]; rfl

theorem after_slash (a b : Str) (h : '/' ∉ b) : after (a ++ '/' :: b) = b := by
  unfold after
  rw [List.reverse_append, List.reverse_cons, List.append_assoc, takeWhile_append' _ _ _ (by
    intro x hx
    have : x ≠ '/' := fun e => h (by rw [← e]; simpa using hx)
    simpa using this)]
  simp [List.takeWhile_cons]

theorem after_none (b : Str) (h : '/' ∉ b) : after b = b := by
  unfold after
  have := takeWhile_append' (· != '/') b.reverse [] (by
    intro x hx
    have : x ≠ '/' := fun e => h (by rw [← e]; simpa using hx)
    simpa using this)
  simp only [List.append_nil, List.takeWhile_nil] at this
  rw [this, List.reverse_reverse]

theorem cases_slash (p : Str) : '/' ∉ p ∨ ∃ a b, p = a ++ '/' :: b ∧ '/' ∉ b := by
  induction p with
  | nil => left; simp
  | cons c p ih =>
    rcases ih with h | ⟨a, b, e, h⟩
    · by_cases hc : c = '/'
      · right; exact ⟨[], p, by rw [hc]; rfl, h⟩
      · left; simp only [List.mem_cons, not_or]; exact ⟨fun e => hc e.symm, h⟩
    · right; exact ⟨c :: a, b, by rw [e]; rfl, h⟩

theorem rstrip_slash (a : Str) (c : Char) (h : c ≠ '/') : rstrip (a ++ [c] ++ ['/']) = a ++ [c] := by
  unfold rstrip
  simp [List.dropWhile_cons, h]

theorem rstrip_prefix (p : Str) : rstrip p <+: p := by
  unfold rstrip
  have : p.reverse.dropWhile (· == '/') <:+ p.reverse := List.dropWhile_suffix _
  have := List.reverse_prefix.mpr this
  simpa using this

theorem upTo_prefix (p : Str) : upTo p <+: p := by
  unfold upTo
  have : p.reverse.dropWhile (· != '/') <:+ p.reverse := List.dropWhile_suffix _
  have := List.reverse_prefix.mpr this
  simpa using this

theorem splitHead_prefix (p : Str) : splitHead p <+: p := by
  unfold splitHead
  simp only
  split
  · exact (rstrip_prefix _).trans (upTo_prefix p)
  · exact upTo_prefix p

theorem replicate_iff (p : Str) : p = List.replicate p.length '/' ↔ ∀ x ∈ p, x = '/' := by
  constructor
  · intro h x hx; rw [h] at hx; exact List.eq_of_mem_replicate hx
  · intro h; exact List.eq_replicate_iff.mpr ⟨rfl, h⟩

/-- A path with a last name loses it. -/
theorem splitHead_name (a : Str) (c : Char) (b : Str) (hc : c ≠ '/') (hb : '/' ∉ b) :
    splitHead (a ++ [c] ++ '/' :: b) = a ++ [c] := by
  unfold splitHead
  rw [upTo_slash _ _ hb]
  simp only
  rw [if_pos]
  · exact rstrip_slash a c hc
  · refine ⟨by simp, ?_⟩
    intro h
    exact hc ((replicate_iff _).mp h c (by simp))

theorem hasExt_iff (b : Str) (p : Str) (hp : after p = b) : hasExt p = true ↔ WithExt b := by
  unfold hasExt
  rw [hp]
  constructor
  · intro h
    have hs : b.reverse = b.reverse.takeWhile (· != '.') ++ b.reverse.dropWhile (· != '.') := (List.takeWhile_append_dropWhile).symm
    revert h hs
    cases hd : b.reverse.dropWhile (· != '.') with
    | nil => intro h; cases h
    | cons d before =>
      intro h hs
      have hdot : d = '.' := by
        have := List.head_dropWhile_not (l := b.reverse) (· != '.') (by rw [hd]; simp)
        simp only [hd, List.head_cons] at this
        simpa using this
      refine ⟨before.reverse, (b.reverse.takeWhile (· != '.')).reverse, ?_, ?_, ?_⟩
      · have := congrArg List.reverse hs
        rw [List.reverse_reverse, List.reverse_append, List.reverse_cons, hdot] at this
        refine this.trans ?_
        rw [List.append_assoc]; rfl
      · intro hm
        have := mem_takeWhile' _ _ _ (List.mem_reverse.mp hm)
        simp at this
      · simp only [List.any_eq_true] at h
        obtain ⟨x, hx, hne⟩ := h
        exact ⟨x, by simpa using hx, by simpa using hne⟩
  · rintro ⟨u, v, e, hv, x, hx, hne⟩
    have hd : b.reverse.dropWhile (· != '.') = '.' :: u.reverse := by
      rw [e, List.reverse_append, List.reverse_cons, List.append_assoc, dropWhile_append', if_pos]
      · simp [List.dropWhile_cons]
      · rw [dropWhile_nil]; intro y hy
        have : y ≠ '.' := fun ey => hv (by rw [← ey]; simpa using hy)
        simpa using this
    rw [hd]
    simp only [List.any_eq_true]
    exact ⟨x, by simpa using hx, by simpa using hne⟩

theorem path_snoc (root : Str) (cs : List Str) (c : Str) (h : cs ≠ []) :
    path root (cs ++ [c]) = path root cs ++ '/' :: c := by
  have : List.intercalate "/".toList (cs ++ [c]) = List.intercalate "/".toList cs ++ '/' :: c := by
    induction cs with
    | nil => exact absurd rfl h
    | cons a cs ih =>
      cases cs with
      | nil => simp [List.intercalate, List.intersperse]
      | cons b cs =>
        have := ih (by simp)
        simp only [List.intercalate, List.cons_append, List.intersperse, List.flatten_cons] at this ⊢
        rw [this]
        simp
  unfold path; rw [this, List.append_assoc]

theorem name_last (c : Str) (h : Name c) : ∃ a x, c = a ++ [x] ∧ x ≠ '/' := by
  obtain ⟨a, x, e⟩ : ∃ a x, c = a ++ [x] := ⟨c.dropLast, c.getLast h.1, (List.dropLast_concat_getLast h.1).symm⟩
  exact ⟨a, x, e, fun hx => h.2 (by rw [e, hx]; simp)⟩

theorem path_last (root : Str) (cs : List Str) (h : cs ≠ []) (hn : ∀ c ∈ cs, Name c) :
    ∃ a x, path root cs = a ++ [x] ∧ x ≠ '/' := by
  obtain ⟨ds, c, rfl⟩ : ∃ ds c, cs = ds ++ [c] := ⟨cs.dropLast, cs.getLast h, (List.dropLast_concat_getLast h).symm⟩
  obtain ⟨a, x, e, hx⟩ := name_last c (hn c (by simp))
  by_cases hd : ds = []
  · subst hd
    refine ⟨root ++ a, x, ?_, hx⟩
    simp [path, List.intercalate, List.intersperse, e]
  · refine ⟨path root ds ++ '/' :: a, x, ?_, hx⟩
    rw [path_snoc _ _ _ hd, e]; simp

theorem splitHead_snoc (root : Str) (cs : List Str) (c : Str) (h : cs ≠ []) (hn : ∀ d ∈ cs, Name d) (hc : Name c) :
    splitHead (path root (cs ++ [c])) = path root cs := by
  obtain ⟨a, x, e, hx⟩ := path_last root cs h hn
  rw [path_snoc _ _ _ h, e]
  exact splitHead_name a x c hx hc.2

theorem splitHead_one (root c : Str) (hr : root = [] ∨ root = "/".toList) (hc : Name c) :
    splitHead (path root [c]) = root := by
  have e : path root [c] = root ++ c := by simp [path, List.intercalate, List.intersperse]
  rw [e]
  rcases hr with rfl | rfl
  · unfold splitHead; rw [List.nil_append, upTo_none c hc.2]; rfl
  · have : upTo ("/".toList ++ c) = ['/'] := upTo_slash [] c hc.2
    unfold splitHead; rw [this]; rfl

theorem path_first (root : Str) (c : Str) (cs : List Str) : ∃ t, path root (c :: cs) = root ++ c ++ t ∧ (cs ≠ [] → '/' ∈ t) := by
  cases cs with
  | nil => exact ⟨[], by simp [path, List.intercalate, List.intersperse], fun h => absurd rfl h⟩
  | cons d ds =>
    refine ⟨'/' :: List.intercalate "/".toList (d :: ds), ?_, fun _ => by simp⟩
    simp [path, List.intercalate, List.intersperse]

/-- The path of names is none of those at which the loop ends. -/
theorem path_runs (root : Str) (cs : List Str) (hr : root = [] ∨ root = "/".toList) (h : cs ≠ []) (hn : ∀ c ∈ cs, Name c)
    (hd : root = [] → cs.head? ≠ some ".".toList) :
    ¬ (path root cs = "/".toList ∨ path root cs = ".".toList ∨ path root cs = []) := by
  obtain ⟨a, x, e, hx⟩ := path_last root cs h hn
  rintro (h1 | h1 | h1)
  · rw [e] at h1
    have := congrArg List.getLast? h1
    simp at this
    exact hx this
  · cases cs with
    | nil => exact h rfl
    | cons c cs =>
      obtain ⟨t, et, ht⟩ := path_first root c cs
      rw [et] at h1
      rcases hr with rfl | rfl
      · by_cases hcs : cs = []
        · subst hcs
          have : c = ".".toList := by
            have := h1
            rw [← et] at this
            simpa [path, List.intercalate, List.intersperse] using this
          exact hd rfl (by rw [this]; rfl)
        · have : '/' ∈ (".".toList : Str) := by rw [← h1]; simp [ht hcs]
          revert this; decide
      · have : '/' ∈ (".".toList : Str) := by rw [← h1]; simp
        revert this; decide
  · rw [e] at h1; simp at h1

theorem upwards_snoc (root : Str) (cs : List Str) (c : Str) :
    upwards root (cs ++ [c]) = path root (cs ++ [c]) :: upwards root cs := by
  unfold upwards
  rw [List.length_append, List.length_singleton, List.range_succ_eq_map, List.map_cons, List.map_map]
  congr 1
  · rw [List.take_of_length_le (by simp)]
  · apply List.map_congr_left
    intro i hi
    have hi' : i < cs.length := by simpa using hi
    simp only [Function.comp]
    rw [List.take_append_of_le_length (by omega)]
    congr 2
    omega

theorem head_dropped (cs : List Str) (c : Str) (h : cs ≠ []) : (cs ++ [c]).head? = cs.head? := by
  cases cs with
  | nil => exact absurd rfl h
  | cons a cs => rfl

theorem loop_names (root : Str) (hr : root = [] ∨ root = "/".toList) (k : Nat) : ∀ (cs : List Str), cs.length = k → (∀ c ∈ cs, Name c) →
    (root = [] → cs.head? ≠ some ".".toList) → ∀ n, k < n →
    loop n (if cs = [] then root else path root cs) = some (upwards root cs) := by
  induction k with
  | zero =>
    intro cs hl _ _ n hn
    have : cs = [] := List.eq_nil_of_length_eq_zero hl
    subst this
    obtain ⟨m, rfl⟩ : ∃ m, n = m + 1 := ⟨n - 1, by omega⟩
    rw [if_pos rfl]
    simp only [loop]
    rw [if_pos (by rcases hr with rfl | rfl <;> simp)]
    rfl
  | succ k ih =>
    intro cs hl hn hd n hk
    have hne : cs ≠ [] := by intro e; rw [e] at hl; cases hl
    obtain ⟨m, rfl⟩ : ∃ m, n = m + 1 := ⟨n - 1, by omega⟩
    rw [if_neg hne]
    simp only [loop]
    rw [if_neg (path_runs root cs hr hne hn hd)]
    obtain ⟨ds, c, rfl⟩ : ∃ ds c, cs = ds ++ [c] := ⟨cs.dropLast, cs.getLast hne, (List.dropLast_concat_getLast hne).symm⟩
    have hl' : ds.length = k := by simpa using hl
    have hs : splitHead (path root (ds ++ [c])) = if ds = [] then root else path root ds := by
      by_cases hds : ds = []
      · subst hds; rw [if_pos rfl]; exact splitHead_one root c hr (hn c (by simp))
      · rw [if_neg hds]; exact splitHead_snoc root ds c hds (fun d hd' => hn d (by simp [hd'])) (hn c (by simp))
    rw [hs, ih ds hl' (fun d hd' => hn d (by simp [hd'])) (by
      intro e h
      by_cases hds : ds = []
      · subst hds; cases h
      · exact hd e (by rw [head_dropped _ _ hds]; exact h)) m (by omega), upwards_snoc]
    rfl

theorem after_path (root : Str) (hr : root = [] ∨ root = "/".toList) (cs : List Str) (c : Str) (hc : Name c) :
    after (path root (cs ++ [c])) = c := by
  by_cases h : cs = []
  · subst h
    have e : path root ([] ++ [c]) = root ++ c := by simp [path, List.intercalate, List.intersperse]
    rw [e]
    rcases hr with rfl | rfl
    · exact after_none c hc.2
    · exact after_slash [] c hc.2
  · rw [path_snoc _ _ _ h]; exact after_slash _ _ hc.2

/-! ### Theorems -/

/-- For a relative or absolute path of names the list is of the directories above, from the nearest one up to one name. The
path itself is the first in the list if its name has no extension. -/
theorem C106_listing (root : Str) (hr : root = [] ∨ root = "/".toList) (cs : List Str) (c : Str)
    (hn : ∀ d ∈ cs ++ [c], Name d) (hd : root = [] → (cs ++ [c]).head? ≠ some ".".toList) (n : Nat) (hk : cs.length + 1 < n) :
    (WithExt c → parents n (path root (cs ++ [c])) = some (upwards root cs)) ∧
    (¬ WithExt c → parents n (path root (cs ++ [c])) = some (path root (cs ++ [c]) :: upwards root cs)) := by
  have hc := hn c (by simp)
  have he := hasExt_iff c _ (after_path root hr cs c hc)
  constructor
  · intro h
    unfold parents
    rw [if_pos (he.mpr h)]
    have hs : splitHead (path root (cs ++ [c])) = if cs = [] then root else path root cs := by
      by_cases hds : cs = []
      · subst hds; rw [if_pos rfl]; exact splitHead_one root c hr hc
      · rw [if_neg hds]; exact splitHead_snoc root cs c hds (fun d hd' => hn d (by simp [hd'])) hc
    rw [hs]
    refine loop_names root hr _ cs rfl (fun d hd' => hn d (by simp [hd'])) ?_ n (by omega)
    intro e hh
    by_cases hds : cs = []
    · subst hds; cases hh
    · exact hd e (by rw [head_dropped _ _ hds]; exact hh)
  · intro h
    unfold parents
    rw [if_neg (fun h' => h (he.mp h'))]
    have := loop_names root hr _ (cs ++ [c]) rfl hn hd n (by simp; omega)
    rw [if_neg (by simp)] at this
    rw [this, upwards_snoc]

example : WithExt "test.txt".toList ∧ (∀ d ∈ ["home".toList, "documents".toList] ++ ["test.txt".toList], Name d) ∧
    parents 4 (path "/".toList (["home".toList, "documents".toList] ++ ["test.txt".toList])) =
      some ["/home/documents".toList, "/home".toList] := by
  refine ⟨⟨"test".toList, "txt".toList, rfl, by decide, 't', by decide, by decide⟩, ?_, by decide +kernel⟩
  intro d hd
  simp only [List.cons_append, List.nil_append, List.mem_cons, List.not_mem_nil, or_false] at hd
  rcases hd with rfl | rfl | rfl <;> exact ⟨by decide, by decide⟩

theorem prefix_two (p q : Str) (h : p <+: q) (hp : TwoSlashes p) : TwoSlashes q := by
  obtain ⟨t, rfl⟩ := h
  obtain ⟨r, rfl⟩ := hp
  exact ⟨r ++ t, rfl⟩

theorem splitHead_two (p : Str) (h : TwoSlashes p) : TwoSlashes (splitHead p) := by
  obtain ⟨q, rfl⟩ := h
  have hu : ∃ r, upTo ('/' :: '/' :: q) = '/' :: '/' :: r := by
    rcases cases_slash q with hq | ⟨a, b, rfl, hb⟩
    · exact ⟨[], upTo_slash ['/'] q hq⟩
    · exact ⟨a ++ ['/'], upTo_slash ('/' :: '/' :: a) b hb⟩
  obtain ⟨r, hr⟩ := hu
  unfold splitHead
  rw [hr]
  simp only
  split
  · rename_i h
    have hx : ¬ ∀ x ∈ r, x = '/' := fun hall => h.2 ((replicate_iff _).mpr (by
      intro x hx
      simp only [List.mem_cons] at hx
      rcases hx with rfl | rfl | hx
      · rfl
      · rfl
      · exact hall x hx))
    have hl : r.reverse.dropWhile (· == '/') ≠ [] := by
      intro e
      rw [dropWhile_nil] at e
      exact hx fun x hx' => by simpa using e x (by simpa using hx')
    refine ⟨(r.reverse.dropWhile (· == '/')).reverse, ?_⟩
    unfold rstrip
    rw [List.reverse_cons, List.reverse_cons, List.append_assoc, dropWhile_append', if_neg hl]
    simp
  · exact ⟨r, rfl⟩

theorem loop_two (n : Nat) : ∀ p, TwoSlashes p → loop n p = none := by
  induction n with
  | zero => intro p _; rfl
  | succ n ih =>
    intro p h
    simp only [loop]
    rw [if_neg, ih _ (splitHead_two p h)]
    · rfl
    · obtain ⟨q, rfl⟩ := h
      simp

theorem splitHead_shorter (p : Str) (h : ¬ TwoSlashes p) :
    splitHead p = [] ∨ splitHead p = "/".toList ∨ (splitHead p).length < p.length := by
  rcases cases_slash p with hp | ⟨a, b, rfl, hb⟩
  · left; unfold splitHead; rw [upTo_none p hp]; rfl
  · right
    unfold splitHead
    rw [upTo_slash a b hb]
    simp only
    split
    · right
      have h1 : rstrip (a ++ ['/']) <+: a := by
        unfold rstrip
        have : a.reverse.dropWhile (· == '/') <:+ a.reverse := List.dropWhile_suffix _
        have := List.reverse_prefix.mpr this
        simpa [List.dropWhile_cons] using this
      have := h1.length_le
      simp only [List.length_append, List.length_cons]
      omega
    · rename_i hs
      left
      have hall : ∀ x ∈ a ++ ['/'], x = '/' := by
        rw [← replicate_iff]
        by_cases e : a ++ ['/'] = List.replicate (a ++ ['/']).length '/'
        · exact e
        · exact absurd ⟨by simp, e⟩ hs
      cases a with
      | nil => rfl
      | cons x a =>
        exfalso
        have hx : x = '/' := hall x (by simp)
        cases a with
        | nil => exact h ⟨b, by rw [hx]; rfl⟩
        | cons y a => exact h ⟨a ++ '/' :: b, by rw [hx, hall y (by simp)]; rfl⟩

theorem loop_ends (k : Nat) : ∀ p : Str, p.length ≤ k → ¬ TwoSlashes p → ∀ n, k + 1 < n → ∃ l, loop n p = some l := by
  induction k with
  | zero =>
    intro p hp _ n hn
    obtain ⟨m, rfl⟩ : ∃ m, n = m + 1 := ⟨n - 1, by omega⟩
    have : p = [] := List.eq_nil_of_length_eq_zero (by omega)
    exact ⟨[], by simp [loop, this]⟩
  | succ k ih =>
    intro p hp h n hn
    obtain ⟨m, rfl⟩ : ∃ m, n = m + 1 := ⟨n - 1, by omega⟩
    obtain ⟨m', rfl⟩ : ∃ m', m = m' + 1 := ⟨m - 1, by omega⟩
    by_cases hs : p = "/".toList ∨ p = ".".toList ∨ p = []
    · exact ⟨[], by simp only [loop]; rw [if_pos hs]⟩
    · have : ∃ l, loop (m' + 1) (splitHead p) = some l := by
        rcases splitHead_shorter p h with e | e | e
        · exact ⟨[], by rw [e]; simp [loop]⟩
        · exact ⟨[], by rw [e]; simp [loop]⟩
        · exact ih _ (by omega) (fun h' => h (prefix_two _ _ (splitHead_prefix p) h')) _ (by omega)
      obtain ⟨l, hl⟩ := this
      exact ⟨p :: l, by rw [loop, if_neg hs, hl]; rfl⟩

/-- For every path that does not start with two slashes the function returns, after no more rounds than the path has
characters, and two. -/
theorem C106_ends_partial (p : Str) (h : ¬ TwoSlashes p) (n : Nat) (hn : p.length + 1 < n) : ∃ l, parents n p = some l := by
  unfold parents
  split
  · refine loop_ends p.length _ (splitHead_prefix p).length_le (fun h' => h (prefix_two _ _ (splitHead_prefix p) h')) n hn
  · exact loop_ends p.length p (Nat.le_refl _) h n hn

example : ¬ TwoSlashes "a/b.c".toList ∧ parents 7 "a//b.c".toList = some ["a".toList] := by
  refine ⟨?_, by decide +kernel⟩
  rintro ⟨q, h⟩
  cases h

/-- Finding: for a path that starts with two slashes it does not return, whatever the rest of the path is: the head of a
path keeps its two slashes, and `//` is not in the list at which the loop ends. -/
theorem C106_ends_refuted (p : Str) (h : TwoSlashes p) (n : Nat) : parents n p = none := by
  unfold parents
  split
  · exact loop_two n _ (splitHead_two p h)
  · exact loop_two n p h

example : TwoSlashes "//server/a.dm".toList := ⟨"server/a.dm".toList, rfl⟩

theorem loop_prefixes (n : Nat) : ∀ (p : Str) (l : List Str), loop n p = some l →
    (∀ q ∈ l, q <+: p ∧ q ≠ [] ∧ q ≠ "/".toList ∧ q ≠ ".".toList) ∧ l.Pairwise fun a b => b <+: a := by
  induction n with
  | zero => intro p l h; cases h
  | succ n ih =>
    intro p l h
    simp only [loop] at h
    split at h
    · cases h; simp
    · rename_i hs
      cases hl : loop n (splitHead p) with
      | none => rw [hl] at h; cases h
      | some l' =>
        rw [hl] at h
        cases h
        have := ih _ _ hl
        refine ⟨?_, ?_⟩
        · intro q hq
          rcases List.mem_cons.mp hq with rfl | hq
          · exact ⟨List.prefix_refl _, fun e => hs (Or.inr (Or.inr e)), fun e => hs (Or.inl e), fun e => hs (Or.inr (Or.inl e))⟩
          · exact ⟨(this.1 q hq).1.trans (splitHead_prefix p), (this.1 q hq).2⟩
        · exact List.pairwise_cons.mpr ⟨fun q hq => (this.1 q hq).1.trans (splitHead_prefix p), this.2⟩

/-- Whatever the path, what is listed are beginnings of its text, each one of the one before it, and none is empty, the root
directory or the current directory. -/
theorem C106_beginnings (p : Str) (n : Nat) (l : List Str) (h : parents n p = some l) :
    (∀ q ∈ l, q <+: p ∧ q ≠ [] ∧ q ≠ "/".toList ∧ q ≠ ".".toList) ∧ l.Pairwise fun a b => b <+: a := by
  unfold parents at h
  split at h
  · have := loop_prefixes n _ _ h
    exact ⟨fun q hq => ⟨(this.1 q hq).1.trans (splitHead_prefix p), (this.1 q hq).2⟩, this.2⟩
  · exact loop_prefixes n _ _ h

/-- Finding: a directory with a slash at its end is listed twice, with the slash and without it. -/
theorem C106_slash_refuted (c : Str) (hc : Name c) (hd : c ≠ ".".toList) (n : Nat) (hn : 2 < n) :
    parents n (c ++ "/".toList) = some [c ++ "/".toList, c] := by
  obtain ⟨a, x, e, hx⟩ := name_last c hc
  have h1 : splitHead (c ++ "/".toList) = c := by rw [e]; exact splitHead_name a x [] hx (by simp)
  have h0 : hasExt (c ++ "/".toList) = false := by
    have : after (c ++ "/".toList) = [] := after_slash c [] (by simp)
    unfold hasExt; rw [this]; rfl
  have h2 : loop (n - 1) c = some [c] := by
    have := loop_names [] (Or.inl rfl) 1 [c] rfl (by simpa using hc) (by intro _ h; exact hd (by simpa using h)) (n - 1) (by omega)
    rw [if_neg (by simp)] at this
    simpa [upwards, path, List.intercalate, List.intersperse] using this
  obtain ⟨m, rfl⟩ : ∃ m, n = m + 1 := ⟨n - 1, by omega⟩
  unfold parents
  rw [h0]
  simp only [Bool.false_eq_true, if_false, loop]
  rw [if_neg, h1]
  · have : m + 1 - 1 = m := by omega
    rw [this] at h2
    rw [h2]; rfl
  · rw [e]
    rintro (h | h | h)
    · have := congrArg List.length h; simp at this
    · have := congrArg List.length h; simp at this
    · have := congrArg List.length h; simp at this

end Verif.ParentPaths
