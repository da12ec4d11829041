import Verif.Lemmas.Dict
import Verif.Spec.Classes

namespace Verif.Classes

open Verif Verif.Classes.Spec

variable {T : Table}

theorem mem_bases (b c : Nat) : b ∈ bases T c ↔ Base T b c := by
  unfold bases Base
  cases e : T[c]? with
  | none => simp
  | some x => simp

theorem get_own (c : Nat) (k : Str) (m : Member) : (own T c).get? k = some m ↔ Gives T c k m := by
  unfold own Gives
  cases e : T[c]? with
  | none => simp
  | some x => simp

theorem mem_subclasses (c d : Nat) : d ∈ subclasses T c ↔ Base T c d := by
  unfold subclasses
  simp only [List.mem_filter, List.mem_range, decide_eq_true_eq, mem_bases]
  constructor
  · exact fun h => h.2
  · intro h
    obtain ⟨x, hx, _⟩ := id h
    exact ⟨(List.getElem?_eq_some_iff.1 hx).1, h⟩

theorem derives_lt (hw : WellFormed T) {b c : Nat} (h : Derives T b c) : b < c ∧ c < T.length := by
  induction h with
  | base c d hb =>
    obtain ⟨x, hx, _⟩ := id hb
    exact ⟨hw.earlier _ _ hb, (List.getElem?_eq_some_iff.1 hx).1⟩
  | step c s d hb _ ih =>
    have := hw.earlier _ _ hb
    exact ⟨by omega, ih.2⟩

theorem derives_last {b c : Nat} : Derives T b c ↔ Base T b c ∨ ∃ s, Base T s c ∧ Derives T b s := by
  constructor
  · intro h
    induction h with
    | base c d hb => exact .inl hb
    | step c s d hb hd ih =>
      rcases ih with h | ⟨s', h1, h2⟩
      · exact .inr ⟨s, h, .base _ _ hb⟩
      · exact .inr ⟨s', h1, .step _ _ _ hb h2⟩
  · rintro (h | ⟨s, h1, h2⟩)
    · exact .base _ _ h
    · induction h2 with
      | base c d hb => exact .step _ _ _ hb (.base _ _ h1)
      | step c s d hb _ ih => exact .step _ _ _ hb (ih h1)

theorem mem_allSubclassesN (hw : WellFormed T) (n : Nat) : ∀ c d, T.length - c ≤ n →
    (d ∈ allSubclassesN T n c ↔ Derives T c d) := by
  induction n with
  | zero =>
    intro c d hn
    simp only [allSubclassesN, List.not_mem_nil, false_iff]
    intro h
    have := derives_lt hw h
    omega
  | succ n ih =>
    intro c d hn
    simp only [allSubclassesN, List.mem_append, List.mem_flatMap, mem_subclasses]
    constructor
    · rintro (h | ⟨s, h1, h2⟩)
      · exact .base _ _ h
      · have := hw.earlier _ _ h1
        exact .step _ _ _ h1 ((ih s d (by omega)).1 h2)
    · intro h
      cases h with
      | base _ _ hb => exact .inl hb
      | step _ s _ h1 h2 =>
        have := hw.earlier _ _ h1
        exact .inr ⟨s, h1, (ih s d (by omega)).2 h2⟩

theorem mem_allParentsN (hw : WellFormed T) (n : Nat) : ∀ b c, c ≤ n →
    (b ∈ allParentsN T n c ↔ Base T b c ∨ (b ≠ object ∧ Derives T b c)) := by
  induction n with
  | zero =>
    intro b c hn
    simp only [allParentsN, List.not_mem_nil, false_iff]
    rintro (h | ⟨_, h⟩)
    · have := hw.earlier _ _ h; omega
    · have := derives_lt hw h; omega
  | succ n ih =>
    intro b c hn
    simp only [allParentsN, List.mem_append, List.mem_flatMap, mem_bases, List.mem_filter, decide_eq_true_eq]
    constructor
    · rintro (h | ⟨s, h1, h2, h3⟩)
      · exact .inl h
      · have := hw.earlier _ _ h1
        refine .inr ⟨h3, derives_last.2 (.inr ⟨s, h1, ?_⟩)⟩
        rcases (ih b s (by omega)).1 h2 with h | h
        · exact .base _ _ h
        · exact h.2
    · rintro (h | ⟨h3, h⟩)
      · exact .inl h
      · rcases derives_last.1 h with h | ⟨s, h1, h2⟩
        · exact .inl h
        · have := hw.earlier _ _ h1
          exact .inr ⟨s, h1, (ih b s (by omega)).2 (.inr ⟨h3, h2⟩), h3⟩

theorem mem_allParents (hw : WellFormed T) (b c : Nat) :
    b ∈ allParents T c ↔ Base T b c ∨ (b ≠ object ∧ Derives T b c) := by
  by_cases hc : c ≤ T.length
  · exact mem_allParentsN hw _ b c hc
  · have hnone : T[c]? = none := by simp; omega
    have hb : ∀ b, ¬ Base T b c := by rintro b ⟨x, hx, _⟩; rw [hnone] at hx; simp at hx
    have h1 : bases T c = [] := by simp [bases, hnone]
    constructor
    · intro h
      unfold allParents at h
      cases e : T.length with
      | zero => rw [e] at h; simp [allParentsN] at h
      | succ n => rw [e] at h; simp [allParentsN, h1] at h
    · rintro (h | ⟨_, h⟩)
      · exact absurd h (hb b)
      · rcases derives_last.1 h with h | ⟨s, h, _⟩
        · exact absurd h (hb b)
        · exact absurd h (hb s)

/-! ### Look-ups -/

theorem lookup_own {mro : Nat → List Nat} (hm : Resolves T mro) {c : Nat} {k : Str} {m : Member} (h : Gives T c k m) :
    lookup T mro c k = some m := by
  obtain ⟨l, hl⟩ := (hm c).1
  simp [lookup, hl, List.findSome?_cons, (get_own c k m).2 h]

theorem lookup_some {mro : Nat → List Nat} (hm : Resolves T mro) {c : Nat} {k : Str} {m : Member}
    (h : lookup T mro c k = some m) : ∃ b, (b = c ∨ Derives T b c) ∧ Gives T b k m := by
  obtain ⟨b, h1, h2⟩ := List.exists_of_findSome?_eq_some h
  exact ⟨b, ((hm c).2 b).1 h1, (get_own _ _ _).1 h2⟩

theorem derives_trans {a b c : Nat} (h1 : Derives T a b) (h2 : Derives T b c) : Derives T a c := by
  induction h1 with
  | base c d hb => exact .step _ _ _ hb h2
  | step c s d hb _ ih => exact .step _ _ _ hb (ih h2)

/-! ### All dicts -/

theorem get_update (d items : Dict Str Member) (hn : items.keys.Nodup) (k : Str) :
    (d.update items).get? k = ((items.get? k).or (d.get? k)) := by
  induction items generalizing d with
  | nil => simp [Dict.update]
  | cons kv items ih =>
    obtain ⟨k', v⟩ := kv
    have hn' : k' ∉ Dict.keys items ∧ (Dict.keys items).Nodup := by simpa using hn
    have h1 : d.update ((k', v) :: items) = (d.set k' v).update items := rfl
    rw [h1, ih _ hn'.2, Dict.get?_set]
    by_cases e : k' = k
    · subst e
      have : Dict.get? items k' = none := (Dict.get?_eq_none_iff _ _).2 hn'.1
      simp [Dict.get?, this]
    · simp [Dict.get?, e]

theorem own_nodup (hw : WellFormed T) (c : Nat) : (own T c).keys.Nodup := by
  unfold own
  cases e : T[c]? with
  | none => simp
  | some x => exact hw.names c x e

/-- The first class of a list that gives an attribute. -/
def firstGiven (T : Table) (k : Str) (l : List Nat) : Option Member := l.findSome? fun b => (own T b).get? k

theorem get_allDicts (hw : WellFormed T) (c : Nat) (k : Str) :
    (allDicts T c).get? k = firstGiven T k (c :: allParents T c) := by
  have key : ∀ (l : List Nat) (d : Dict Str Member),
      (l.reverse.foldl (fun d b => d.update (own T b)) d).get? k = (firstGiven T k l).or (d.get? k) := by
    intro l
    induction l with
    | nil => intro d; simp [firstGiven]
    | cons a l ih =>
      intro d
      rw [List.reverse_cons, List.foldl_append]
      simp only [List.foldl_cons, List.foldl_nil]
      rw [get_update _ _ (own_nodup hw a), ih]
      simp only [firstGiven, List.findSome?_cons]
      cases (own T a).get? k <;> simp
  have := key (c :: allParents T c) []
  rw [List.reverse_cons] at this
  unfold allDicts
  rw [this]
  simp

theorem nearest_unique (hl : Linear T) {k : Str} {c : Nat} {m m' : Member} (h : Nearest T k c m)
    (h' : Nearest T k c m') : m = m' := by
  induction h with
  | own c m hg =>
    cases h' with
    | own _ _ hg' =>
      rw [← get_own] at hg hg'
      rw [hg] at hg'; exact Option.some.inj hg'
    | base _ _ _ hn => exact absurd ⟨_, hg⟩ hn
  | base c b m hn hb hm ih =>
    cases h' with
    | own _ _ hg' => exact absurd ⟨_, hg'⟩ hn
    | base _ b' _ _ hb' hm' =>
      have : b = b' := by
        obtain ⟨x, hx, h1⟩ := hb
        obtain ⟨y, hy, h2⟩ := hb'
        rw [hx] at hy; simp at hy; subst hy
        have := hl c x hx
        cases e : x.bases with
        | nil => rw [e] at h1; simp at h1
        | cons a t =>
          cases t with
          | nil => rw [e] at h1 h2; simp at h1 h2; rw [h1, h2]
          | cons a' t' => rw [e] at this; simp at this
      subst this
      exact ih hm'

theorem bases_linear (hl : Linear T) (c : Nat) : bases T c = [] ∨ ∃ b, bases T c = [b] := by
  unfold bases
  cases e : T[c]? with
  | none => simp
  | some x =>
    have := hl c x e
    cases e' : x.bases with
    | nil => simp [e']
    | cons a t =>
      cases t with
      | nil => simp [e']
      | cons a' t' => rw [e'] at this; simp at this

theorem firstGiven_filter (k : Str) (hobj : ∀ m, ¬ Gives T object k m) (l : List Nat) :
    firstGiven T k (l.filter (· ≠ object)) = firstGiven T k l := by
  induction l with
  | nil => rfl
  | cons a l ih =>
    have hcons : ∀ l', firstGiven T k (a :: l') = ((own T a).get? k).or (firstGiven T k l') := by
      intro l'
      unfold firstGiven
      rw [List.findSome?_cons]
      cases (own T a).get? k <;> simp
    by_cases ha : a = object
    · have hno : (own T a).get? k = none := by
        cases e : (own T a).get? k with
        | none => rfl
        | some m => rw [get_own, ha] at e; exact absurd e (hobj m)
      rw [List.filter_cons_of_neg (by simp [ha]), ih, hcons, hno]; rfl
    · rw [List.filter_cons_of_pos (by simp [ha]), hcons, hcons, ih]

theorem firstGiven_linear (hw : WellFormed T) (hl : Linear T) (k : Str) (hobj : ∀ m, ¬ Gives T object k m) (n : Nat) :
    ∀ c m, c ≤ n → (firstGiven T k (c :: allParentsN T n c) = some m ↔ Nearest T k c m) := by
  induction n with
  | zero =>
    intro c m hn
    simp only [allParentsN, firstGiven, List.findSome?_cons, List.findSome?_nil]
    have hnb : ∀ b, ¬ Base T b c := fun b hb => by have := hw.earlier _ _ hb; omega
    cases e : (own T c).get? k with
    | none =>
      simp only [reduceCtorEq, false_iff]
      intro h
      cases h with
      | own _ _ hg => rw [← get_own, e] at hg; simp at hg
      | base _ b _ _ hb _ => exact hnb b hb
    | some m' =>
      constructor
      · intro h; simp at h; subst h; exact .own _ _ ((get_own _ _ _).1 e)
      · intro h
        cases h with
        | own _ _ hg => rw [← get_own, e] at hg; simpa using hg
        | base _ b _ _ hb _ => exact absurd hb (hnb b)
  | succ n ih =>
    intro c m hn
    have hcons : ∀ l', firstGiven T k (c :: l') = ((own T c).get? k).or (firstGiven T k l') := by
      intro l'
      unfold firstGiven
      rw [List.findSome?_cons]
      cases (own T c).get? k <;> simp
    rw [hcons]
    cases e : (own T c).get? k with
    | some m' =>
      have hg := (get_own c k m').1 e
      constructor
      · intro h; simp at h; subst h; exact .own _ _ hg
      · intro h
        cases h with
        | own _ _ hg' => rw [← get_own, e] at hg'; simpa using hg'
        | base _ _ _ hn' => exact absurd ⟨_, hg⟩ hn'
    | none =>
      have hng : ¬ ∃ m', Gives T c k m' := by
        rintro ⟨m', h⟩; rw [← get_own, e] at h; simp at h
      rw [Option.none_or]
      rcases bases_linear hl c with hb | ⟨b, hb⟩
      · rw [allParentsN, hb]
        simp only [List.nil_append, List.flatMap_nil, firstGiven, List.findSome?_nil, reduceCtorEq, false_iff]
        intro h
        cases h with
        | own _ _ hg => exact hng ⟨_, hg⟩
        | base _ b _ _ hb' _ => rw [← mem_bases, hb] at hb'; simp at hb'
      · have hbb : Base T b c := by rw [← mem_bases, hb]; simp
        have hlt := hw.earlier _ _ hbb
        have : firstGiven T k (allParentsN T (n + 1) c) = firstGiven T k (b :: allParentsN T n b) := by
          rw [allParentsN, hb]
          simp only [List.flatMap_cons, List.flatMap_nil, List.append_nil, List.singleton_append]
          have hcons' : ∀ l', firstGiven T k (b :: l') = ((own T b).get? k).or (firstGiven T k l') := by
            intro l'
            unfold firstGiven
            rw [List.findSome?_cons]
            cases (own T b).get? k <;> simp
          rw [hcons', hcons', firstGiven_filter k hobj]
        rw [this, ih b m (by omega)]
        constructor
        · intro h; exact .base _ b _ hng hbb h
        · intro h
          cases h with
          | own _ _ hg => exact absurd ⟨_, hg⟩ hng
          | base _ b' _ _ hb' hm =>
            rw [← mem_bases, hb] at hb'
            simp at hb'; subst hb'; exact hm

theorem allDicts_nearest (hw : WellFormed T) (hl : Linear T) (k : Str) (hobj : ∀ m, ¬ Gives T object k m)
    (c : Nat) (hc : c < T.length) (m : Member) : (allDicts T c).get? k = some m ↔ Nearest T k c m := by
  rw [get_allDicts hw]
  exact firstGiven_linear hw hl k hobj T.length c m (by omega)

/-! ### Weak attributes -/

theorem lookup_nearest {mro : Nat → List Nat} (hw : WellFormed T) (hl : Linear T) (hm : ResolvesLinear T mro) (k : Str) (n : Nat) :
    ∀ c m, c ≤ n → (lookup T mro c k = some m ↔ Nearest T k c m) := by
  induction n using Nat.strongRecOn with
  | _ n ih =>
    intro c m hn
    have hfirst : ∀ l, mro c = c :: l → lookup T mro c k = ((own T c).get? k).or (l.findSome? fun b => (own T b).get? k) := by
      intro l h
      unfold lookup
      rw [h, List.findSome?_cons]
      cases (own T c).get? k <;> simp
    cases e : (own T c).get? k with
    | some m' =>
      have hg := (get_own c k m').1 e
      have hl' : ∃ l, mro c = c :: l := by
        by_cases hb : ∃ b, Base T b c
        · obtain ⟨b, hb⟩ := hb; exact ⟨_, (hm c).1 b hb⟩
        · exact ⟨_, (hm c).2 hb⟩
      obtain ⟨l, hl'⟩ := hl'
      rw [hfirst l hl', e, Option.some_or]
      constructor
      · intro h; simp at h; subst h; exact .own _ _ hg
      · intro h
        rw [nearest_unique hl h (.own _ _ hg)]
    | none =>
      have hng : ¬ ∃ m', Gives T c k m' := by
        rintro ⟨m', h⟩; rw [← get_own, e] at h; simp at h
      by_cases hb : ∃ b, Base T b c
      · obtain ⟨b, hb⟩ := hb
        have hlt := hw.earlier _ _ hb
        rw [hfirst _ ((hm c).1 b hb), e, Option.none_or]
        have := ih b (by omega) b m (Nat.le_refl _)
        unfold lookup at this
        rw [this]
        constructor
        · intro h; exact .base _ b _ hng hb h
        · intro h
          cases h with
          | own _ _ hg => exact absurd ⟨_, hg⟩ hng
          | base _ b' _ _ hb' hm' =>
            rcases bases_linear hl c with h0 | ⟨b0, h0⟩
            · rw [← mem_bases, h0] at hb; simp at hb
            · rw [← mem_bases, h0] at hb hb'
              simp at hb hb'
              rw [hb, ← hb']; exact hm'
      · rw [hfirst _ ((hm c).2 hb), e]
        simp only [List.findSome?_nil, Option.none_or, reduceCtorEq, false_iff]
        intro h
        cases h with
        | own _ _ hg => exact hng ⟨_, hg⟩
        | base _ b _ _ hb' _ => exact hb ⟨b, hb'⟩

theorem nearest_gives {k : Str} {c : Nat} {m : Member} (h : Nearest T k c m) : ∃ b, Gives T b k m := by
  induction h with
  | own c m hg => exact ⟨c, hg⟩
  | base _ _ _ _ _ _ ih => exact ih

theorem descriptor_iff {p : Program} (hp : Plain p) (obj : Nat) (name : Str) (d : Nat) :
    descriptor p obj name = some d ↔ Nearest p.table name (p.cls obj) (.weak d) := by
  rw [← lookup_nearest hp.wellFormed hp.linear hp.resolves name (p.cls obj) _ _ (Nat.le_refl _)]
  unfold descriptor
  cases e : lookup p.table p.mro (p.cls obj) name with
  | none => simp
  | some m => cases m <;> simp

theorem allDicts_nodup (c : Nat) : (allDicts T c).keys.Nodup := by
  unfold allDicts
  have : ∀ (l : List Nat) (d : Dict Str Member), d.keys.Nodup →
      (l.foldl (fun d b => d.update (own T b)) d).keys.Nodup := by
    intro l
    induction l with
    | nil => intro d h; exact h
    | cons a l ih => intro d h; exact ih _ (Dict.update_nodup _ _ h)
  exact this _ _ (by simp)

theorem searchName_fold (d : Nat) (k : Str) (l : Dict Str Member) (huniq : ∀ kv ∈ l, kv.2 = .weak d → kv.1 = k) :
    ∀ acc, (acc = none ∨ acc = some k) → (acc = some k ∨ (k, .weak d) ∈ l) →
    l.foldl (fun acc kv => if kv.2 = .weak d then some kv.1 else acc) acc = some k := by
  induction l with
  | nil => intro acc _ h; simpa using h
  | cons kv l ih =>
    intro acc h1 h2
    rw [List.foldl_cons]
    have hu : ∀ kv ∈ l, kv.2 = .weak d → kv.1 = k := fun x hx => huniq x (by simp [hx])
    by_cases e : kv.2 = .weak d
    · rw [if_pos e, huniq kv (by simp) e]
      exact ih hu _ (.inr rfl) (.inl rfl)
    · rw [if_neg e]
      refine ih hu _ h1 ?_
      rcases h2 with h2 | h2
      · exact .inl h2
      · rcases List.mem_cons.1 h2 with h2 | h2
        · rw [← h2] at e; exact absurd rfl e
        · exact .inr h2

theorem searchName_found {p : Program} (hp : Plain p) {obj : Nat} {name : Str} {d : Nat}
    (h : Nearest p.table name (p.cls obj) (.weak d)) : searchName p.table (p.cls obj) d = some name := by
  obtain ⟨b, hb⟩ := nearest_gives h
  have hget := (allDicts_nearest hp.wellFormed hp.linear name (hp.noObject b name d hb) (p.cls obj)
    (hp.known obj) (.weak d)).2 h
  refine searchName_fold d name _ ?_ none (.inl rfl) (.inr (Dict.mem_of_get? _ _ _ hget))
  rintro ⟨k, m⟩ hkv hm
  simp at hm; subst hm
  have := Dict.get?_of_mem _ (allDicts_nodup _) _ _ hkv
  rw [get_allDicts hp.wellFormed] at this
  obtain ⟨b', _, h2⟩ := List.exists_of_findSome?_eq_some this
  exact hp.oneName _ _ _ _ _ ((get_own _ _ _).1 h2) hb

/-- What is true after the events `es`. -/
structure Inv (p : Program) (es : List Event) (w : World) : Prop where
  names : ∀ d k, w.names.get? d = some k → ∃ c, Gives p.table c k (.weak d)
  refs : ∀ obj name d, descriptor p obj name = some d → (refsOf w obj).get? name = lastAssigned obj name es.reverse
  nodup : ∀ obj, (refsOf w obj).keys.Nodup
  gone : ∀ v, v ∈ w.gone ↔ Event.gone v ∈ es

theorem refsOf_set (w : World) (obj obj' : Nat) (r : Dict Str Nat) :
    refsOf { w with refs := w.refs.set obj r } obj' = if obj = obj' then r else refsOf w obj' := by
  unfold refsOf
  simp only [Dict.get?_set]
  by_cases e : obj = obj'
  · rw [if_pos e, if_pos e]; rfl
  · rw [if_neg e, if_neg e]

theorem refsOf_touch (w : World) (obj obj' : Nat) :
    refsOf { w with refs := w.refs.set obj (refsOf w obj) } obj' = refsOf w obj' := by
  rw [refsOf_set]
  by_cases e : obj = obj'
  · rw [if_pos e, e]
  · rw [if_neg e]

theorem Inv.touch {p : Program} {es : List Event} {w : World} (h : Inv p es w) (obj : Nat) :
    Inv p es { w with refs := w.refs.set obj (refsOf w obj) } :=
  ⟨h.names, fun o n d hd => by rw [refsOf_touch]; exact h.refs o n d hd,
    fun o => by rw [refsOf_touch]; exact h.nodup o, h.gone⟩

theorem attrname_found {p : Program} (hp : Plain p) {es : List Event} {w : World} (h : Inv p es w) {obj d : Nat} {name : Str}
    (hd : descriptor p obj name = some d) :
    ∃ ns, attrname p w obj d = .ok ({ w with names := ns }, name) ∧ Inv p es { w with names := ns } := by
  have hn := (descriptor_iff hp obj name d).1 hd
  obtain ⟨b, hb⟩ := nearest_gives hn
  unfold attrname
  cases e : w.names.get? d with
  | some k =>
    obtain ⟨c, hc⟩ := h.names d k e
    have := hp.oneName _ _ _ _ _ hc hb
    subst this
    exact ⟨w.names, rfl, h⟩
  | none =>
    rw [searchName_found hp hn]
    refine ⟨_, rfl, ?_, h.refs, h.nodup, h.gone⟩
    intro d' k' h'
    rw [Dict.get?_set] at h'
    by_cases ed : d = d'
    · subst ed
      rw [if_pos rfl] at h'
      simp at h'; subst h'
      exact ⟨b, hb⟩
    · rw [if_neg ed] at h'
      exact h.names d' k' h'

theorem Inv.idle {p : Program} {es : List Event} {w : World} (h : Inv p es w) (e : Event)
    (hl : ∀ obj name d, descriptor p obj name = some d →
      lastAssigned obj name (e :: es.reverse) = lastAssigned obj name es.reverse)
    (hg : ∀ v, e ≠ .gone v) : Inv p (es ++ [e]) w where
  names := h.names
  refs := fun o n d hd => by
    rw [List.reverse_append, List.reverse_singleton, List.singleton_append, hl o n d hd]; exact h.refs o n d hd
  nodup := h.nodup
  gone := fun v => by
    rw [h.gone]
    simp [Ne.symm (hg v)]

theorem Inv.change {p : Program} {es : List Event} {w : World} (h : Inv p es w) (e : Event) (obj : Nat) (r : Dict Str Nat)
    (hr : r.keys.Nodup)
    (hself : ∀ name d, descriptor p obj name = some d → r.get? name = lastAssigned obj name (e :: es.reverse))
    (hother : ∀ o name, o ≠ obj → lastAssigned o name (e :: es.reverse) = lastAssigned o name es.reverse)
    (hg : ∀ v, e ≠ .gone v) : Inv p (es ++ [e]) { w with refs := w.refs.set obj r } where
  names := h.names
  refs := fun o n d hd => by
    rw [List.reverse_append, List.reverse_singleton, List.singleton_append, refsOf_set]
    by_cases eo : obj = o
    · subst eo; rw [if_pos rfl]; exact hself n d hd
    · rw [if_neg eo, hother o n (Ne.symm eo)]; exact h.refs o n d hd
  nodup := fun o => by
    rw [refsOf_set]
    by_cases eo : obj = o
    · rw [if_pos eo]; exact hr
    · rw [if_neg eo]; exact h.nodup o
  gone := fun v => by
    show v ∈ w.gone ↔ _
    rw [h.gone]
    simp [Ne.symm (hg v)]

theorem inv_step {p : Program} (hp : Plain p) {es : List Event} {w : World} (h : Inv p es w) (e : Event) :
    Inv p (es ++ [e]) (step p w e) := by
  cases e with
  | gone v =>
    refine ⟨h.names, ?_, h.nodup, ?_⟩
    · intro o n d hd
      rw [List.reverse_append, List.reverse_singleton, List.singleton_append]
      exact h.refs o n d hd
    · intro v'
      show v' ∈ v :: w.gone ↔ _
      rw [List.mem_cons, h.gone]
      simp [or_comm]
  | read obj name =>
    have hidle := h.idle (.read obj name) (fun _ _ _ _ => rfl) (fun _ hh => by cases hh)
    cases hd : descriptor p obj name with
    | none => simp only [step, hd]; exact hidle
    | some d =>
      obtain ⟨ns, e1, i1⟩ := attrname_found hp (h.touch obj) hd
      simp only [step, hd, get, e1]
      exact i1.idle (.read obj name) (fun _ _ _ _ => rfl) (fun _ hh => by cases hh)
  | assign obj name value =>
    cases hd : descriptor p obj name with
    | none =>
      simp only [step, hd]
      refine h.idle (.assign obj name value) ?_ (fun _ hh => by cases hh)
      intro o n d' hd'
      cases value with
      | none => rfl
      | some v =>
        simp only [lastAssigned]
        rw [if_neg]
        rintro ⟨rfl, rfl⟩
        rw [hd] at hd'; simp at hd'
    | some d =>
      cases value with
      | none => simp only [step, hd, set]; exact h.idle (.assign obj name none) (fun _ _ _ _ => rfl) (fun _ hh => by cases hh)
      | some v =>
        obtain ⟨ns, e1, i1⟩ := attrname_found hp (h.touch obj) hd
        simp only [step, hd, set, e1]
        refine i1.change (.assign obj name (some v)) obj _ (Dict.keys_set_nodup _ _ _ (i1.nodup obj)) ?_ ?_ (fun _ hh => by cases hh)
        · intro n d' hd'
          simp only [lastAssigned]
          rw [Dict.get?_set]
          by_cases en : name = n
          · subst en; simp
          · simp only [en, and_false, if_false]
            exact i1.refs obj n d' hd'
        · intro o n ho
          simp only [lastAssigned]
          rw [if_neg (fun hh => ho hh.1.symm)]
  | delete obj name =>
    cases hd : descriptor p obj name with
    | none =>
      simp only [step, hd]
      refine h.idle (.delete obj name) ?_ (fun _ hh => by cases hh)
      intro o n d' hd'
      simp only [lastAssigned]
      rw [if_neg]
      rintro ⟨rfl, rfl⟩
      rw [hd] at hd'; simp at hd'
    | some d =>
      obtain ⟨ns, e1, i1⟩ := attrname_found hp (h.touch obj) hd
      simp only [step, hd, delete, e1]
      by_cases hh : (refsOf { { w with refs := w.refs.set obj (refsOf w obj) } with names := ns } obj).has name = true
      · rw [if_pos hh]
        refine i1.change (.delete obj name) obj _ (Dict.keys_del_nodup _ _ (i1.nodup obj)) ?_ ?_ (fun _ hh => by cases hh)
        · intro n d' hd'
          simp only [lastAssigned]
          rw [Dict.get?_del _ (i1.nodup obj)]
          by_cases en : name = n
          · subst en; simp
          · simp only [en, and_false, if_false]
            rw [← i1.refs obj n d' hd']
        · intro o n ho
          simp only [lastAssigned]
          rw [if_neg (fun hh => ho hh.1.symm)]
      · rw [if_neg hh]
        refine i1.idle (.delete obj name) ?_ (fun _ hh => by cases hh)
        intro o n d' hd'
        simp only [lastAssigned]
        by_cases ee : obj = o ∧ name = n
        · obtain ⟨rfl, rfl⟩ := ee
          rw [if_pos ⟨rfl, rfl⟩, ← i1.refs obj name d hd]
          cases eg : (refsOf { { w with refs := w.refs.set obj (refsOf w obj) } with names := ns } obj).get? name with
          | none => rfl
          | some v => rw [Dict.has, eg] at hh; exact absurd rfl hh
        · rw [if_neg ee]

theorem inv_run {p : Program} (hp : Plain p) (es : List Event) : Inv p es (run p es) := by
  have : ∀ (es' es : List Event) (w : World), Inv p es w → Inv p (es ++ es') (es'.foldl (step p) w) := by
    intro es'
    induction es' with
    | nil => intro es w h; simpa using h
    | cons e es' ih =>
      intro es w h
      have := ih (es ++ [e]) (step p w e) (inv_step hp h e)
      simpa using this
  have h0 : Inv p [] ⟨[], [], []⟩ :=
    ⟨fun d k h => by simp [Dict.get?] at h, fun o n d _ => rfl, fun o => by simp [refsOf], fun v => by simp⟩
  simpa [run] using this es [] _ h0

end Verif.Classes
