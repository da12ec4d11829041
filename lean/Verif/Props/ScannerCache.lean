import Verif.Spec.ScannerCache
import Verif.Props.Classes

/-!
# C101: the search for scanners
-/

namespace Verif.ScannerCache

open Verif Verif.Classes Verif.Classes.Spec

variable {mro : Table → Nat → List Nat} {scanner : Nat}

/-! ### Lemmas -/

theorem mem_extensionsOf {T : Table} {m : Nat → List Nat} (hw : WellFormed T) (hl : Linear T) (hm : ResolvesLinear T m) (s : Nat)
    (e : Str) : e ∈ extensionsOf T m s ↔ ∃ l, Nearest T "extensions".toList s (.values l) ∧ e ∈ l := by
  have h := fun x => lookup_nearest hw hl hm "extensions".toList s s x (Nat.le_refl s)
  unfold extensionsOf
  constructor
  · intro he
    split at he
    · rename_i l hl
      exact ⟨l, (h _).mp hl, he⟩
    · cases he
  · rintro ⟨l, h1, h2⟩
    rw [(h _).mpr h1]
    exact h2

theorem get?_update_mem (items : List (Str × Nat)) (d : Dict Str Nat) (k : Str) :
    ((d.update items).get? k = none ↔ d.get? k = none ∧ ∀ s, (k, s) ∉ items) ∧
    ∀ s, (d.update items).get? k = some s → (k, s) ∈ items ∨ d.get? k = some s := by
  induction items generalizing d with
  | nil => exact ⟨by simp [Dict.update], fun s h => .inr h⟩
  | cons x l ih =>
    obtain ⟨h1, h2⟩ := ih (d.set x.1 x.2)
    have e : Dict.update d (x :: l) = Dict.update (d.set x.1 x.2) l := rfl
    rw [e]
    constructor
    · rw [h1, Dict.get?_set]
      by_cases hx : x.1 = k
      · rw [if_pos hx]
        refine ⟨(fun h => by cases h.1), fun h => ?_⟩
        subst hx
        exact absurd (List.mem_cons_self ..) (h.2 x.2)
      · rw [if_neg hx]
        refine and_congr_right fun _ => forall_congr' fun s => ?_
        rw [List.mem_cons, not_or]
        exact ⟨fun h => ⟨fun e => hx (by rw [← e]), h⟩, fun h => h.2⟩
    · intro s hs
      rcases h2 s hs with h | h
      · exact .inl (List.mem_cons_of_mem _ h)
      · rw [Dict.get?_set] at h
        by_cases hx : x.1 = k
        · rw [if_pos hx] at h
          cases h
          exact .inl (hx ▸ List.mem_cons_self ..)
        · rw [if_neg hx] at h
          exact .inr h

theorem mem_pairs {T : Table} {m : Nat → List Nat} (hw : WellFormed T) (hl : Linear T) (hm : ResolvesLinear T m) (s : Nat) (e : Str) :
    (e, s) ∈ ((allSubclasses T scanner).flatMap fun s => (extensionsOf T m s).map fun e => (e, s)) ↔ Handles T scanner s e := by
  rw [List.mem_flatMap]
  constructor
  · rintro ⟨s', h1, h2⟩
    obtain ⟨e', h3, h4⟩ := List.mem_map.mp h2
    cases h4
    exact ⟨(C86_subclasses T hw scanner s).mp h1, (mem_extensionsOf hw hl hm s e).mp h3⟩
  · rintro ⟨h1, h2⟩
    exact ⟨s, (C86_subclasses T hw scanner s).mpr h1, List.mem_map.mpr ⟨e, (mem_extensionsOf hw hl hm s e).mpr h2, rfl⟩⟩

theorem findSome?_get? (l : List Nat) (d : Dict Str Nat) (hs : scanner ∈ l) :
    (l.findSome? fun c => Dict.get? [(scanner, d)] c) = some d := by
  induction l with
  | nil => cases hs
  | cons a l ih =>
    rw [List.findSome?_cons]
    by_cases h : scanner = a
    · subst h
      simp [Dict.get?]
    · have : Dict.get? [(scanner, d)] a = none := by simp [Dict.get?, h]
      rw [this]
      exact ih (by rcases List.mem_cons.mp hs with e | h' ; exact absurd e h; exact h')

theorem run_kept (d : Dict Str Nat) (es : List Event) : ∀ (T : Table), Searches mro scanner T es →
    (run mro scanner ⟨T, [(scanner, d)]⟩ es).caches = [(scanner, d)] := by
  induction es with
  | nil => intro T _; rfl
  | cons x es ih =>
    intro T h
    cases x with
    | define c => exact ih (T ++ [c]) h
    | find c e =>
      have hk : getScanner mro scanner ⟨T, [(scanner, d)]⟩ c e = (⟨T, [(scanner, d)]⟩, d.get? e) := by
        simp only [getScanner, findSome?_get? (mro T c) d h.1]
      show (run mro scanner (getScanner mro scanner ⟨T, [(scanner, d)]⟩ c e).1 es).caches = _
      rw [hk]
      exact ih T h.2

/-! ### Theorems -/

/-- The first search finds a scanner exactly if there is one for the extension at the time, and what it finds is one. -/
theorem C101_first (T : Table) (hw : WellFormed T) (hl : Linear T) (hm : ResolvesLinear T (mro T)) (c : Nat) (ext : Str) :
    ((getScanner mro scanner ⟨T, []⟩ c ext).2 = none ↔ ¬ ∃ s, Handles T scanner s ext) ∧
    ∀ s, (getScanner mro scanner ⟨T, []⟩ c ext).2 = some s → Handles T scanner s ext := by
  have hn : ((mro T c).findSome? fun c => Dict.get? ([] : Dict Nat (Dict Str Nat)) c) = none := by
    rw [List.findSome?_eq_none_iff]
    intro _ _
    rfl
  have e : (getScanner mro scanner ⟨T, []⟩ c ext).2 = (scannersDict T (mro T) scanner).get? ext := by
    simp only [getScanner, hn]
  rw [e]
  obtain ⟨h1, h2⟩ := get?_update_mem ((allSubclasses T scanner).flatMap fun s => (extensionsOf T (mro T) s).map fun e => (e, s)) [] ext
  constructor
  · unfold scannersDict
    rw [h1]
    constructor
    · rintro ⟨_, h⟩ ⟨s, hs⟩
      exact h s ((mem_pairs hw hl hm s ext).mpr hs)
    · exact fun h => ⟨rfl, fun s hs => h ⟨s, (mem_pairs hw hl hm s ext).mp hs⟩⟩
  · intro s hs
    rcases h2 s hs with h | h
    · exact (mem_pairs hw hl hm s ext).mp h
    · cases h

/-- After a search with `Scanner`, all searches find what a search at that time finds, whatever classes are defined and searches are made
since. -/
theorem C101_kept (T : Table) (ext₀ : Str) (es : List Event) (hes : Searches mro scanner T es)
    (c : Nat) (hc : scanner ∈ mro (run mro scanner (getScanner mro scanner ⟨T, []⟩ scanner ext₀).1 es).table c) (ext : Str) :
    (getScanner mro scanner (run mro scanner (getScanner mro scanner ⟨T, []⟩ scanner ext₀).1 es) c ext).2 =
      (getScanner mro scanner ⟨T, []⟩ scanner ext).2 := by
  have hn : ((mro T scanner).findSome? fun c => Dict.get? ([] : Dict Nat (Dict Str Nat)) c) = none := by
    rw [List.findSome?_eq_none_iff]
    intro _ _
    rfl
  have e1 : ∀ x, getScanner mro scanner ⟨T, []⟩ scanner x =
      (⟨T, [(scanner, scannersDict T (mro T) scanner)]⟩, (scannersDict T (mro T) scanner).get? x) := by
    intro x
    simp only [getScanner, hn, Dict.set]
  rw [e1, e1] at *
  have hk := run_kept (scannersDict T (mro T) scanner) es T hes
  generalize run mro scanner ⟨T, [(scanner, scannersDict T (mro T) scanner)]⟩ es = w at *
  simp only [getScanner, hk, findSome?_get? _ _ hc]

/-- Without new classes, all searches of a history find what the first one would have found. -/
theorem C101_history (T : Table) (es : List Event) (hes : ∀ d, Event.define d ∉ es) (c : Nat) (ext : Str) :
    (getScanner mro scanner (run mro scanner ⟨T, []⟩ es) c ext).2 = (getScanner mro scanner ⟨T, []⟩ scanner ext).2 := by
  have hn : ((mro T scanner).findSome? fun c => Dict.get? ([] : Dict Nat (Dict Str Nat)) c) = none := by
    rw [List.findSome?_eq_none_iff]
    intro _ _
    rfl
  have e1 : (getScanner mro scanner ⟨T, []⟩ scanner ext).2 = (scannersDict T (mro T) scanner).get? ext := by
    simp only [getScanner, hn]
  have key : ∀ w : World, w.table = T → (∀ c d, w.caches.get? c = some d → d = scannersDict T (mro T) scanner) → ∀ c x,
      (getScanner mro scanner w c x).1.table = T ∧
      (∀ c' d, (getScanner mro scanner w c x).1.caches.get? c' = some d → d = scannersDict T (mro T) scanner) ∧
      (getScanner mro scanner w c x).2 = (scannersDict T (mro T) scanner).get? x := by
    intro w hT hc c x
    unfold getScanner
    split
    · rename_i d hd
      obtain ⟨c', _, h'⟩ := List.exists_of_findSome?_eq_some hd
      exact ⟨hT, hc, by rw [hc c' d h']⟩
    · subst hT
      refine ⟨rfl, ?_, rfl⟩
      intro c' d hd
      rw [Dict.get?_set] at hd
      split at hd
      · exact (Option.some.inj hd).symm
      · exact hc c' d hd
  have hrun : ∀ (es : List Event), (∀ d, Event.define d ∉ es) → ∀ w : World, w.table = T →
      (∀ c d, w.caches.get? c = some d → d = scannersDict T (mro T) scanner) →
      (run mro scanner w es).table = T ∧
      ∀ c d, (run mro scanner w es).caches.get? c = some d → d = scannersDict T (mro T) scanner := by
    intro es
    induction es with
    | nil => exact fun _ w h1 h2 => ⟨h1, h2⟩
    | cons x es ih =>
      intro hes w h1 h2
      cases x with
      | define d => exact absurd (List.mem_cons_self ..) (hes d)
      | find c e =>
        obtain ⟨k1, k2, _⟩ := key w h1 h2 c e
        exact ih (fun d h => hes d (List.mem_cons_of_mem _ h)) _ k1 k2
  obtain ⟨h1, h2⟩ := hrun es hes ⟨T, []⟩ rfl (fun c d h => by cases h)
  rw [e1]
  exact (key _ h1 h2 c ext).2.2

/-! ### Concrete classes -/

/-- The method resolution order of classes with one base. -/
def lineN (T : Table) : Nat → Nat → List Nat
  | 0, c => [c]
  | n + 1, c => c :: match bases T c with
    | b :: _ => lineN T n b
    | [] => []

def line (T : Table) (c : Nat) : List Nat := lineN T (c + 1) c

/-- `object`, `Scanner`, `HtmlScanner`. -/
def scanners : Table :=
  [⟨[], []⟩, ⟨[0], [("extensions".toList, .values [])]⟩, ⟨[1], [("extensions".toList, .values [".html".toList, ".htm".toList])]⟩]

/-- A scanner for css files. -/
def cssScanner : ClassDef := ⟨[1], [("extensions".toList, .values [".css".toList])]⟩

theorem scanners_line : ResolvesLinear scanners (line scanners) := by
  intro c
  match c with
  | 0 => exact ⟨fun b h => (by rw [base_iff] at h; cases h), fun _ => rfl⟩
  | 1 => exact ⟨fun b h => (by rw [base_iff] at h; cases List.mem_singleton.mp h; rfl),
      fun h => absurd ⟨0, (base_iff ..).mpr (List.mem_singleton.mpr rfl)⟩ h⟩
  | 2 => exact ⟨fun b h => (by rw [base_iff] at h; cases List.mem_singleton.mp h; rfl),
      fun h => absurd ⟨1, (base_iff ..).mpr (List.mem_singleton.mpr rfl)⟩ h⟩
  | n + 3 => exact ⟨fun b h => (by rw [base_iff] at h; cases h), fun _ => rfl⟩

example : WellFormed scanners ∧ Linear scanners ∧ Handles scanners 1 2 ".htm".toList :=
  ⟨wellFormed_of _ (by decide) (by decide), linear_of _ (by decide), .base _ _ ((base_iff ..).mpr (by decide)),
    _, .own _ _ ⟨_, rfl, rfl⟩, by decide⟩

example : (getScanner line 1 ⟨scanners, []⟩ 2 ".htm".toList).2 = some 2 ∧ (getScanner line 1 ⟨scanners, []⟩ 1 ".css".toList).2 = none := by
  decide +kernel

example : Searches line 1 scanners [.define cssScanner, .find 3 ".css".toList, .find 1 ".html".toList] := by
  simp only [Searches]; decide +kernel

/-- A scanner that is defined before the first search is found, and it is not found if there was a search before (finding). -/
theorem C101_late_refuted :
    (getScanner line 1 (run line 1 ⟨scanners, []⟩ [.define cssScanner]) 1 ".css".toList).2 = some 3 ∧
    (getScanner line 1 (run line 1 ⟨scanners, []⟩ [.find 1 ".html".toList, .define cssScanner]) 1 ".css".toList).2 = none := by
  decide +kernel

end Verif.ScannerCache
