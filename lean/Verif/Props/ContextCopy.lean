import Verif.Lemmas.ContextCopy
import Verif.Props.Context

/-!
# C85: copies of contexts
-/

set_option linter.unusedVariables false

namespace Verif.Context

open Verif Verif.Context.Spec

/-- C85. `filter` of a context for keys that are all different. It does not raise. It makes a new
context and leaves everything that was there as it was. The new context has the entries of the context
for the keys, as far as there are any, and no others. Immutable values are the same; of lists, sets and
dicts it has copies of its own, one for each entry. -/
theorem C85_filter (P : Py) (c : Cls) (h : Heap) (ctx : Nat) (keys : List Str) (hn : keys.Nodup)
    (hs : Sound h ctx) :
    ∃ h' new, filtered P c h ctx keys = .ok (h', new) ∧ New h new ∧ Kept h h' ∧ Separate h' new ∧
      (∀ k w, Holds h' new k w → k ∈ keys ∧ ∃ v, Holds h ctx k v ∧ CopyOf h h' v w) ∧
      (∀ k ∈ keys, ∀ v, Holds h ctx k v → ∃ w, Holds h' new k w) := by
  obtain ⟨h', d, hf, hc⟩ := filtered_copying P c h ctx keys hn hs
  have hd : ∀ k v, Holds h' h.length k v ↔ d.get? k = some v := by
    intro k v
    constructor
    · rintro ⟨d', h1, h2⟩
      rw [hc.here] at h1; simp at h1; subst h1; exact h2
    · intro hk; exact ⟨d, hc.here, hk⟩
  have hent : ∀ k v, Holds h ctx k v ↔ (entries h ctx).get? k = some v := by
    intro k v
    rw [holds_iff]
    unfold getKey entries
    cases e : h[ctx]? with
    | none => simp
    | some obj => cases obj <;> simp
  refine ⟨h', h.length, hf, by simp [New], hc.kept, ⟨?_, ?_⟩, ?_, ?_⟩
  · intro k hk
    have := hc.apart k _ ((hd _ _).1 hk)
    omega
  · intro k k' o h1 h2
    exact hc.sep k k' o ((hd _ _).1 h1) ((hd _ _).1 h2)
  · intro k w hw
    have hw' := (hd k w).1 hw
    have hk := hc.only k w hw'
    refine ⟨hk, ?_⟩
    cases e : (entries h ctx).get? k with
    | none => rw [hc.absent k hk e] at hw'; simp at hw'
    | some v =>
      obtain ⟨w', h1, h2⟩ := hc.present k hk v e
      rw [hw'] at h1; simp at h1; subst h1
      exact ⟨v, (hent _ _).2 e, h2⟩
  · intro k hk v hv
    obtain ⟨w, h1, _⟩ := hc.present k hk v ((hent _ _).1 hv)
    exact ⟨w, (hd _ _).2 h1⟩

theorem sample_sound : Sound sampleHeap 0 := by
  rintro k o ⟨d, hd, hk⟩
  have h1 := Dict.mem_of_get? _ _ _ hk
  rw [← entries_eq hd] at h1
  have h2 : ∀ x ∈ entries sampleHeap 0, ∀ i, x.2 = .ref i → i < sampleHeap.length := by
    simp [entries, sampleHeap]
  exact ⟨_, List.getElem?_eq_getElem (h2 _ h1 o rfl)⟩

/-- The sample context filtered for its list, an entry that is missing and its number: the copy is at
address 5 with a list of its own at 6. -/
example : ["targets".toList, "paths".toList, "depth".toList].Nodup ∧
    filtered samplePy sampleCls sampleHeap 0 ["targets".toList, "paths".toList, "depth".toList] =
      .ok (sampleHeap ++ [.dict [("targets".toList, .ref 6), ("depth".toList, .atom (.int 2))],
        .list [.atom (.str ".html".toList)]], 5) := ⟨by decide, by rfl⟩

/-- C85. The filtered copy of a context has the content of the context for the keys, and whatever is
loaded into the copy afterwards, in any number of updates, the context and all its values stay as they
were.

Partial: the mutable entries of the context hold only immutable values. With values nested deeper it is false:
`C85_nested_refuted`. -/
theorem C85_independent_partial (P : Py) (c : Cls) (h : Heap) (ctx : Nat) (keys : List Str) (hn : keys.Nodup)
    (F : FCtx) (hF : Content h ctx F) :
    ∃ h1 new F', filtered P c h ctx keys = .ok (h1, new) ∧ Content h1 new F' ∧
      (∀ k ∈ keys, F'.get? k = F.get? k) ∧ (∀ k, k ∉ keys → F'.get? k = none) ∧
      ∀ (us : List (FCtx × Bool)) (parent : Option Nat) (initial : Nat) (h2 : Heap),
        (∀ u ∈ us, u.1.keys.Nodup) →
        runOps P c new parent initial h1 (us.map fun u => .update u.1 u.2) = .ok h2 →
        Kept h h2 ∧ Content h2 ctx F := by
  obtain ⟨h1, F', e1, l1, n1, f1, g1⟩ := filtered_later P c h ctx keys hn F hF
  refine ⟨h1, h.length, F', e1, ?_, ?_, ?_, ?_⟩
  · obtain ⟨M, d, ho, _⟩ := l1; exact ho.content
  · intro k hk; rw [g1, if_pos hk]
  · intro k hk; rw [g1, if_neg hk]
  · intro us parent initial h2 hus hr
    have hsame : ∀ x < h.length, h2[x]? = h[x]? := by
      intro x hx
      rw [updates_later P c h.length us hus h.length parent initial h1 F' n1 l1 h2 hr x hx, f1 x hx]
    refine ⟨fun a obj ha => by rw [hsame a (lt_of_getElem? _ _ _ ha), ha], ?_⟩
    obtain ⟨d, _, hdn, _⟩ := id hF
    have he := (early_of_content hF).mono hsame
    refine he.content ?_
    obtain ⟨d, a1, a2, a3⟩ := hF
    rw [← a3.1]; exact a2

/-- Loading entries into the copy changes the copy. -/
example : Content sampleHeap 0 sampleF ∧
    ((do
      let (h1, new) ← filtered samplePy sampleCls sampleHeap 0 ["targets".toList, "style".toList]
      let h2 ← runOps samplePy sampleCls new none 0 h1
        [Op.update [("style".toList, FVal.dict [("color".toList, Atom.str "green".toList)])] true]
      pure ((getKey h2 new "style".toList).bind (flatVal h2), (getKey h2 0 "style".toList).bind (flatVal h2))).toOption =
     some (some (.dict [("color".toList, .str "green".toList)]),
       some (.dict [("color".toList, .str "red".toList)]))) := ⟨sample_content.1, by decide⟩

/-- Finding: values nested two deep are shared between a context and its filtered copy. A context with
`label_resets: {chapter: {section}}` is filtered for this entry, and `label_resets: {chapter: figure}`
is loaded in the copy: the set of the context has changed. -/
theorem C85_nested_refuted :
    let h : Heap := [.dict [("label_resets".toList, .ref 1)], .dict [("chapter".toList, .ref 2)],
      .set [.atom (.str "section".toList)]]
    ((do
      let (h1, new) ← filtered samplePy sampleCls h 0 ["label_resets".toList]
      update samplePy sampleCls.replace true
        (h1 ++ [Obj.dict [("chapter".toList, .atom (.str "figure".toList))],
          Obj.dict [("label_resets".toList, .ref h1.length)]]) new (h1.length + 1)).toOption.bind
        (fun h2 => h2[2]?)) =
      some (Obj.set [.atom (.str "section".toList), .atom (.str "figure".toList)]) := by decide

/-- Finding: with a key that is given twice, the entry is merged into its own copy. A list gets its items
twice, and for a truth value `filter` raises. -/
theorem C85_repeated_refuted :
    filtered samplePy ⟨[], [], []⟩ [.dict [("paths".toList, .ref 1)], .list [.atom (.str "a".toList)]] 0
      ["paths".toList, "paths".toList] =
      .ok ([.dict [("paths".toList, .ref 1)], .list [.atom (.str "a".toList)], .dict [("paths".toList, .ref 3)],
        .list [.atom (.str "a".toList), .atom (.str "a".toList)]], 2) ∧
    filtered samplePy ⟨[], [], []⟩ [.dict [("relative_links".toList, .atom (.bool true))]] 0
      ["relative_links".toList, "relative_links".toList] = .error .attributeError := ⟨by rfl, by rfl⟩

/-- C85. `copy.copy` of a context is a new context with the same entries. Nothing is copied: the mutable values are
shared, so that what changes a list in one changes it in the other. -/
theorem C85_copy (h : Heap) (ctx : Nat) (d : Dict Str Value) (hd : h[ctx]? = some (.dict d)) :
    ∃ h' new, copied h ctx = (h', new) ∧ New h new ∧ Kept h h' ∧
      ∀ k v, Holds h' new k v ↔ Holds h ctx k v := by
  refine ⟨_, _, rfl, by simp [New], ?_, ?_⟩
  · intro a obj ha
    rw [List.getElem?_append_left (lt_of_getElem? _ _ _ ha)]; exact ha
  · intro k v
    rw [entries_eq hd]
    constructor
    · rintro ⟨d', h1, h2⟩
      simp at h1; subst h1
      exact ⟨_, hd, h2⟩
    · rintro ⟨d', h1, h2⟩
      rw [hd] at h1; simp at h1; subst h1
      exact ⟨_, by simp, h2⟩

example : copied sampleHeap 0 = (sampleHeap ++ [.dict (entries sampleHeap 0)], 5) ∧
    Holds sampleHeap 0 "targets".toList (.ref 1) := ⟨rfl, _, rfl, rfl⟩

/-- C85. `is_valid` for some keys, or for all the keys with a type if none is given: a key with a
value must have a value of its type, if a type is listed for it; a key without a value is only accepted
if it need not exist. -/
theorem C85_valid (types : Dict Str (Option Ty)) (h : Heap) (ctx : Nat) (keys : List Str) (mustExist : Bool) :
    isValid types h ctx keys mustExist = true ↔
      ∀ k, (k ∈ keys ∨ (keys = [] ∧ k ∈ types.keys)) →
        ((¬ ∃ v, Holds h ctx k v) → mustExist = false) ∧
        ∀ v t, Holds h ctx k v → types.get? k = some (some t) → HasType h v t := by
  have hent : ∀ k v, Holds h ctx k v ↔ (entries h ctx).get? k = some v := by
    intro k v
    rw [holds_iff]
    unfold getKey entries
    cases e : h[ctx]? with
    | none => simp
    | some obj => cases obj <;> simp
  have hnone : ∀ k, (¬ ∃ v, Holds h ctx k v) ↔ (entries h ctx).get? k = none := by
    intro k
    cases e : (entries h ctx).get? k with
    | none => simp [hent, e]
    | some v => simp [hent, e]
  unfold isValid
  rw [validLoop_iff]
  have hkeys : ∀ k, k ∈ (if keys.length = 0 then types.keys else keys) ↔ k ∈ keys ∨ (keys = [] ∧ k ∈ types.keys) := by
    intro k
    cases keys with
    | nil => simp
    | cons a ks => simp
  constructor
  · intro hh k hk
    obtain ⟨h1, h2⟩ := hh k ((hkeys k).2 hk)
    exact ⟨fun hn => h1 ((hnone k).1 hn), fun v t hv => h2 v t ((hent k v).1 hv)⟩
  · intro hh k hk
    obtain ⟨h1, h2⟩ := hh k ((hkeys k).1 hk)
    exact ⟨fun hn => h1 ((hnone k).2 hn), fun v t hv => h2 v t ((hent k v).2 hv)⟩

/-- The sample context has a list of targets but no paths; its title is text. -/
example :
    let types : Dict Str (Option Ty) := [("targets".toList, some .list), ("title".toList, some .list), ("depth".toList, none)]
    isValid types sampleHeap 0 ["targets".toList, "depth".toList] true = true ∧
    isValid types sampleHeap 0 [] true = false ∧
    isValid types sampleHeap 0 ["paths".toList] true = false ∧
    isValid types sampleHeap 0 ["paths".toList] false = true := by decide

end Verif.Context
