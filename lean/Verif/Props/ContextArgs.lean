import Verif.Spec.ContextArgs
import Verif.Lemmas.Dict

/-!
# C100: the arguments of contexts
-/

namespace Verif.ContextArgs

open Verif

variable {α : Type}

theorem get?_update (items : List (Str × α)) (d : Dict Str α) (k : Str) :
    (d.update items).get? k = (lastOf items k).or (d.get? k) := by
  induction items generalizing d with
  | nil => rfl
  | cons x l ih =>
    show ((d.set x.1 x.2).update l).get? k = _
    rw [ih, lastOf, lastOf, List.reverse_cons, List.find?_append, Dict.get?_set]
    cases l.reverse.find? fun x => decide (x.1 = k) with
    | some y => rfl
    | none =>
      by_cases h : x.1 = k
      · simp [h]
      · simp [h, fun h' => h (Eq.symm h')]

theorem lastOf_dict (d : Dict Str α) (h : d.keys.Nodup) (k : Str) : lastOf d k = d.get? k := by
  have h1 := get?_update d [] k
  have h2 := Dict.update_append_new ([] : Dict Str α) d h
  rw [h2] at h1
  simpa [Dict.get?] using h1.symm

theorem lastOf_none (items : List (Str × α)) (k : Str) (h : ∀ v, (k, v) ∉ items) : lastOf items k = none := by
  rw [lastOf, List.find?_eq_none.mpr]
  · rfl
  · intro x hx e
    have : x.1 = k := by simpa using e
    exact h x.2 (this ▸ List.mem_reverse.mp hx)

/-- The two dicts of a constructor that does not raise. -/
theorem made (args : List (List (Str × α))) (kwargs : Dict Str α) (hk : kwargs.keys.Nodup) (r : Made α)
    (h : construct args kwargs = some r) :
    r.parent = (lastOf args.flatten "parent_context".toList).or (kwargs.get? "parent_context".toList) ∧
    (∀ k, ¬ Reserved k → r.initial.get? k = (lastOf args.flatten k).or (kwargs.get? k)) ∧
    ∀ k, Reserved k → r.initial.get? k = lastOf args.flatten k := by
  have key : ∀ items : List (Str × α), ∀ s : Dict Str α, (∀ k, s.get? k = lastOf items k) →
      some r = some ⟨(((kwargs.update items).del "_parent_context".toList).del "_initial_values".toList).get? "parent_context".toList,
        s.update ((((kwargs.update items).del "_parent_context".toList).del "_initial_values".toList).del "parent_context".toList)⟩ →
      r.parent = (lastOf items "parent_context".toList).or (kwargs.get? "parent_context".toList) ∧
      (∀ k, ¬ Reserved k → r.initial.get? k = (lastOf items k).or (kwargs.get? k)) ∧
      ∀ k, Reserved k → r.initial.get? k = lastOf items k := by
    intro items s hs e
    cases e
    have n0 := Dict.update_nodup kwargs items hk
    have n1 := Dict.keys_del_nodup _ "_parent_context".toList n0
    have n2 := Dict.keys_del_nodup _ "_initial_values".toList n1
    have n3 := Dict.keys_del_nodup _ "parent_context".toList n2
    refine ⟨?_, fun k hr => ?_, fun k hr => ?_⟩
    · show Dict.get? _ _ = _
      rw [Dict.get?_del _ n1, if_neg (by decide), Dict.get?_del _ n0, if_neg (by decide), get?_update]
    · have h1 : ¬ "parent_context".toList = k := fun e => hr (.inl e.symm)
      have h2 : ¬ "_parent_context".toList = k := fun e => hr (.inr (.inl e.symm))
      have h3 : ¬ "_initial_values".toList = k := fun e => hr (.inr (.inr e.symm))
      show Dict.get? (Dict.update _ _) _ = _
      rw [get?_update, lastOf_dict _ n3, Dict.get?_del _ n2, if_neg h1, Dict.get?_del _ n1, if_neg h3, Dict.get?_del _ n0, if_neg h2,
        get?_update, hs]
      cases lastOf items k <;> cases kwargs.get? k <;> rfl
    · show Dict.get? (Dict.update _ _) _ = _
      rw [get?_update, lastOf_dict _ n3, Dict.get?_del _ n2, Dict.get?_del _ n1, Dict.get?_del _ n0, hs]
      rcases hr with rfl | rfl | rfl
      · rw [if_pos rfl]; rfl
      · rw [if_neg (by decide), if_neg (by decide), if_pos rfl]; rfl
      · rw [if_neg (by decide), if_pos rfl]; rfl
  match args with
  | [] => exact key [] [] (fun _ => rfl) h.symm
  | [items] =>
    have e : [items].flatten = items := by simp
    rw [e]
    exact key items (Dict.update [] items) (fun k => by rw [get?_update]; cases lastOf items k <;> rfl) h.symm
  | _ :: _ :: _ => cases h

/-- More than one positional argument is an exception, and nothing else. -/
theorem C100_error (args : List (List (Str × α))) (kwargs : Dict Str α) : construct args kwargs = none ↔ 2 ≤ args.length := by
  match args with
  | [] => exact ⟨(fun h => by cases h), (fun h => by cases h)⟩
  | [_] => exact ⟨(fun h => by cases h), (fun h => absurd h (by simp))⟩
  | _ :: _ :: _ => exact ⟨fun _ => by simp, fun _ => rfl⟩

/-- The initial values are those of the positional argument, the last one of each name, and those of the keywords for names that are
not in it. -/
theorem C100_values (args : List (List (Str × α))) (kwargs : Dict Str α) (hk : kwargs.keys.Nodup) (r : Made α)
    (h : construct args kwargs = some r) (k : Str) (hr : ¬ Reserved k) :
    r.initial.get? k = (lastOf args.flatten k).or (kwargs.get? k) := (made args kwargs hk r h).2.1 k hr

/-- The parent is the value `parent_context` of the positional argument or, if it has none, of the keyword. -/
theorem C100_parent (args : List (List (Str × α))) (kwargs : Dict Str α) (hk : kwargs.keys.Nodup) (r : Made α)
    (h : construct args kwargs = some r) :
    r.parent = (lastOf args.flatten "parent_context".toList).or (kwargs.get? "parent_context".toList) := (made args kwargs hk r h).1

/-- The reserved names are not among the initial values if they are given as keywords only. -/
theorem C100_reserved_partial (args : List (List (Str × α))) (kwargs : Dict Str α) (hk : kwargs.keys.Nodup) (r : Made α)
    (h : construct args kwargs = some r) (k : Str) (hr : Reserved k) (ha : ∀ items ∈ args, ∀ v, (k, v) ∉ items) :
    r.initial.get? k = none := by
  rw [(made args kwargs hk r h).2.2 k hr]
  refine lastOf_none _ _ fun v hv => ?_
  obtain ⟨items, h1, h2⟩ := List.mem_flatten.mp hv
  exact ha items h1 v h2

/-- The claim that reserved names are removed (`context/context.py:106-115`) is false of the positional argument: all of them are
initial values again, and with them entries of the context. -/
theorem C100_reserved_refuted (k : Str) (hr : Reserved k) (v : α) :
    ∃ r, construct [[(k, v)]] [] = some r ∧ r.initial.get? k = some v := by
  refine ⟨_, rfl, ?_⟩
  rw [(made [[(k, v)]] [] List.nodup_nil _ rfl).2.2 k hr]
  simp [lastOf]

/-- The claim that keywords replace the values of a positional argument, as in a dict, is false. -/
theorem C100_keyword_refuted (k : Str) (hr : ¬ Reserved k) (v w : α) :
    ∃ r, construct [[(k, v)]] [(k, w)] = some r ∧ r.initial.get? k = some v := by
  refine ⟨_, rfl, ?_⟩
  rw [(made [[(k, v)]] [(k, w)] (by simp [Dict.keys]) _ rfl).2.1 k hr]
  simp [lastOf]

/-! A parent and an entry as keywords, and an entry in a dict. -/

example : construct [[(['a'], 1)]] [("parent_context".toList, 2), (['b'], 3)] = some ⟨some 2, [(['a'], 1), (['b'], 3)]⟩ := by
  decide +kernel

example : ¬ Reserved ['a'] ∧ Reserved "_initial_values".toList := ⟨by unfold Reserved; decide, .inr (.inr rfl)⟩

end Verif.ContextArgs
