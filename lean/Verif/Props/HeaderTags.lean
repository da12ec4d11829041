import Verif.Spec.HeaderTags
import Verif.Lemmas.Dict

/-!
# C88: header entries become tags
-/

namespace Verif.HeaderTags

open Verif

variable {T L E : Type} {make : Maker T L E} {listed : List Str}

/-- What becomes of one entry. -/
def outcome (make : Maker T L E) (e : Dict Str (Val T)) (k : Str) : Except E (Option (T × List L)) :=
  match e.get? k with
  | some (.text s) =>
    match make e k s with
    | .error x => .error x
    | .ok r => .ok (some r)
  | _ => .ok none

def addedOf (make : Maker T L E) (e : Dict Str (Val T)) (k : Str) : List L :=
  match outcome make e k with
  | .ok (some (_, ls)) => ls
  | _ => []

def valueOf (make : Maker T L E) (e : Dict Str (Val T)) (k : Str) : Option (Val T) :=
  match outcome make e k with
  | .ok (some (t, _)) => some (.tag t)
  | _ => e.get? k

theorem outcome_congr (h : Apart make listed) (e : Dict Str (Val T)) (k k' : Str) (v : Val T) (hk : k ∈ listed) (hne : k ≠ k') :
    outcome make (e.set k v) k' = outcome make e k' := by
  have e1 : ∀ j, j ∉ listed → (e.set k v).get? j = e.get? j := by
    intro j hj
    rw [Dict.get?_set, if_neg]
    exact fun hc => hj (hc ▸ hk)
  unfold outcome
  rw [Dict.get?_set, if_neg hne]
  cases e.get? k' with
  | none => rfl
  | some x =>
    cases x with
    | text s => simp only [h _ _ k' s e1]
    | tag t => rfl
    | other n => rfl

theorem entry_outcome (c : Context T L) (k : Str) :
    (∀ x, outcome make c.entries k = .error x → entry make c k = .error x) ∧
    (outcome make c.entries k = .ok none → entry make c k = .ok c) ∧
    (∀ t ls, outcome make c.entries k = .ok (some (t, ls)) → entry make c k = .ok ⟨c.entries.set k (.tag t), c.added ++ ls⟩) := by
  unfold outcome entry
  cases c.entries.get? k with
  | none => simp
  | some v =>
    cases v with
    | text s =>
      cases hm : make c.entries k s with
      | error x => simp [hm]
      | ok r => obtain ⟨t, ls⟩ := r; simp [hm]
    | tag t => simp
    | other n => simp

theorem process_ok (h : Apart make listed) (keys : List Str) (c : Context T L) (hn : keys.Nodup) (hl : ∀ k ∈ keys, k ∈ listed)
    (hok : ∀ k ∈ keys, ∃ o, outcome make c.entries k = .ok o) :
    ∃ c', processTags make keys c = .ok c' ∧ c'.added = c.added ++ keys.flatMap (addedOf make c.entries) ∧
      ∀ k, c'.entries.get? k = if k ∈ keys then valueOf make c.entries k else c.entries.get? k := by
  induction keys generalizing c with
  | nil => exact ⟨c, rfl, by simp, by simp⟩
  | cons k keys ih =>
    rw [List.nodup_cons] at hn
    have hl' := fun x hx => hl x (List.mem_cons_of_mem _ hx)
    obtain ⟨o, ho⟩ := hok k (by simp)
    obtain ⟨-, h2, h3⟩ := entry_outcome (make := make) c k
    cases o with
    | none =>
      obtain ⟨c', a1, a2, a3⟩ := ih c hn.2 hl' (fun x hx => hok x (List.mem_cons_of_mem _ hx))
      refine ⟨c', ?_, ?_, fun j => ?_⟩
      · simp only [processTags, h2 ho]; exact a1
      · rw [a2, List.flatMap_cons]
        have : addedOf make c.entries k = [] := by unfold addedOf; rw [ho]
        rw [this, List.nil_append]
      · rw [a3]
        by_cases hj : j = k
        · subst hj
          rw [if_neg hn.1, if_pos (by simp)]
          unfold valueOf; rw [ho]
        · simp only [List.mem_cons, hj, false_or]
    | some r =>
      obtain ⟨t, ls⟩ := r
      have hne : ∀ x ∈ keys, k ≠ x := fun x hx hc => hn.1 (hc ▸ hx)
      have hk := hl k (by simp)
      obtain ⟨c', a1, a2, a3⟩ := ih ⟨c.entries.set k (.tag t), c.added ++ ls⟩ hn.2 hl' (fun x hx => by
        simp only
        rw [outcome_congr h c.entries k x _ hk (hne x hx)]
        exact hok x (List.mem_cons_of_mem _ hx))
      simp only at a1 a2 a3
      have hadd : ∀ x ∈ keys, addedOf make (c.entries.set k (.tag t)) x = addedOf make c.entries x := by
        intro x hx
        unfold addedOf
        rw [outcome_congr h c.entries k x _ hk (hne x hx)]
      have hval : ∀ x ∈ keys, valueOf make (c.entries.set k (.tag t)) x = valueOf make c.entries x := by
        intro x hx
        unfold valueOf
        rw [outcome_congr h c.entries k x _ hk (hne x hx), Dict.get?_set, if_neg (hne x hx)]
      refine ⟨c', ?_, ?_, fun j => ?_⟩
      · simp only [processTags, h3 t ls ho]; exact a1
      · rw [a2, List.flatMap_cons, List.append_assoc]
        have : addedOf make c.entries k = ls := by unfold addedOf; rw [ho]
        rw [this]
        congr 2
        rw [List.flatMap_def, List.flatMap_def, List.map_congr_left hadd]
      · rw [a3]
        by_cases hj : j = k
        · subst hj
          rw [if_neg hn.1, if_pos (by simp), Dict.get?_set, if_pos rfl]
          unfold valueOf; rw [ho]
        · simp only [List.mem_cons, hj, false_or]
          by_cases hm : j ∈ keys
          · rw [if_pos hm, if_pos hm, hval j hm]
          · rw [if_neg hm, if_neg hm, Dict.get?_set, if_neg (fun hc => hj hc.symm)]

theorem process_error (h : Apart make listed) (keys : List Str) (c : Context T L) (hn : keys.Nodup) (hl : ∀ k ∈ keys, k ∈ listed)
    (k : Str) (hk : k ∈ keys) (x : E) (hx : outcome make c.entries k = .error x) : ∃ x, processTags make keys c = .error x := by
  induction keys generalizing c with
  | nil => simp at hk
  | cons j keys ih =>
    rw [List.nodup_cons] at hn
    have hl' := fun x hx => hl x (List.mem_cons_of_mem _ hx)
    obtain ⟨h1, h2, h3⟩ := entry_outcome (make := make) c j
    cases ho : outcome make c.entries j with
    | error y => exact ⟨y, by simp only [processTags, h1 y ho]⟩
    | ok o =>
      have hne : j ≠ k := by rintro rfl; rw [ho] at hx; cases hx
      have hk' : k ∈ keys := by
        rcases List.mem_cons.1 hk with hc | hc
        · exact absurd hc.symm hne
        · exact hc
      cases o with
      | none => simp only [processTags, h2 ho]; exact ih c hn.2 hl' hk' hx
      | some r =>
        obtain ⟨t, ls⟩ := r
        simp only [processTags, h3 t ls ho]
        exact ih _ hn.2 hl' hk' (by simp only; rw [outcome_congr h c.entries j k _ (hl j (by simp)) hne]; exact hx)

theorem outcome_text (make : Maker T L E) (e : Dict Str (Val T)) (k s : Str) (hs : e.get? k = some (.text s)) :
    (∀ x, outcome make e k = .error x ↔ make e k s = .error x) ∧
    (∀ r, make e k s = .ok r → outcome make e k = .ok (some r)) := by
  unfold outcome
  rw [hs]
  simp only
  cases make e k s <;> simp

theorem outcome_other (make : Maker T L E) (e : Dict Str (Val T)) (k : Str) (hs : ∀ s, e.get? k ≠ some (.text s)) :
    outcome make e k = .ok none := by
  unfold outcome
  cases hk : e.get? k with
  | none => rfl
  | some v =>
    cases v with
    | text s => exact absurd hk (hs s)
    | tag t => rfl
    | other n => rfl

/-- C88. Whatever the order of the set of keys, loading fails exactly if a tag cannot be made from the text of a listed entry. -/
theorem C88_fails (h : Apart make listed) (c : Context T L) (keys : List Str) (ho : OrderOf c listed keys) :
    (∃ x, processTags make keys c = .error x) ↔ ∃ k s x, Listed c listed k s ∧ make c.entries k s = .error x := by
  have hl : ∀ k ∈ keys, k ∈ listed := fun k hk => ((ho.all k).1 hk).1
  constructor
  · rintro ⟨x, hx⟩
    refine Classical.byContradiction fun hno => ?_
    obtain ⟨c', h1, -, -⟩ := process_ok h keys c ho.once hl (fun k hk => by
      obtain ⟨h1, v, hv⟩ := (ho.all k).1 hk
      cases hr : outcome make c.entries k with
      | ok o => exact ⟨o, rfl⟩
      | error y =>
        refine absurd ?_ hno
        cases v with
        | text s => exact ⟨k, s, y, ⟨h1, hv⟩, ((outcome_text make c.entries k s hv).1 y).1 hr⟩
        | tag t => rw [outcome_other make _ k (by rw [hv]; simp)] at hr; cases hr
        | other n => rw [outcome_other make _ k (by rw [hv]; simp)] at hr; cases hr)
    rw [h1] at hx
    cases hx
  · rintro ⟨k, s, x, ⟨h1, h2⟩, h3⟩
    exact process_error h keys c ho.once hl k ((ho.all k).2 ⟨h1, _, h2⟩) x (((outcome_text make c.entries k s h2).1 x).2 h3)

theorem all_ok (h : Apart make listed) (c c' : Context T L) (keys : List Str) (ho : OrderOf c listed keys)
    (hc : processTags make keys c = .ok c') :
    (∀ k, k ∈ listed → ∃ o, outcome make c.entries k = .ok o) ∧ c'.added = c.added ++ keys.flatMap (addedOf make c.entries) ∧
      ∀ k, c'.entries.get? k = if k ∈ keys then valueOf make c.entries k else c.entries.get? k := by
  have hl : ∀ k ∈ keys, k ∈ listed := fun k hk => ((ho.all k).1 hk).1
  have hall : ∀ k, k ∈ listed → ∃ o, outcome make c.entries k = .ok o := by
    intro k hk
    cases hr : outcome make c.entries k with
    | ok o => exact ⟨o, rfl⟩
    | error y =>
      have hin : k ∈ keys := by
        refine (ho.all k).2 ⟨hk, ?_⟩
        cases hg : c.entries.get? k with
        | none => rw [outcome_other make _ k (by rw [hg]; simp)] at hr; cases hr
        | some v => exact ⟨v, rfl⟩
      obtain ⟨x, hx⟩ := process_error h keys c ho.once hl k hin y hr
      rw [hx] at hc; cases hc
  obtain ⟨c2, h1, h2, h3⟩ := process_ok h keys c ho.once hl (fun k hk => hall k (hl k hk))
  rw [h1] at hc
  cases hc
  exact ⟨hall, h2, h3⟩

/-- C88. The texts of the listed entries become tags; all other entries, and entries that are no text, stay as they are. -/
theorem C88_processed (h : Apart make listed) (c c' : Context T L) (keys : List Str) (ho : OrderOf c listed keys)
    (hc : processTags make keys c = .ok c') : Processed make listed c c' := by
  obtain ⟨h1, -, h3⟩ := all_ok h c c' keys ho hc
  constructor
  · rintro k s ⟨hk, hs⟩
    obtain ⟨o, ho'⟩ := h1 k hk
    obtain ⟨t1, t2⟩ := outcome_text make c.entries k s hs
    cases hm : make c.entries k s with
    | error x => rw [(t1 x).2 hm] at ho'; cases ho'
    | ok r =>
      obtain ⟨t, ls⟩ := r
      refine ⟨t, ls, rfl, ?_⟩
      rw [h3, if_pos ((ho.all k).2 ⟨hk, _, hs⟩)]
      unfold valueOf
      rw [t2 _ hm]
  · intro k hk
    rw [h3]
    by_cases hin : k ∈ keys
    · rw [if_pos hin]
      have : outcome make c.entries k = .ok none :=
        outcome_other make _ k (fun s hs => hk s ⟨((ho.all k).1 hin).1, hs⟩)
      unfold valueOf
      rw [this]
    · rw [if_neg hin]

/-- C88. What the tags add is added to what was there before, and nothing else is. -/
theorem C88_added (h : Apart make listed) (c c' : Context T L) (keys : List Str) (ho : OrderOf c listed keys)
    (hc : processTags make keys c = .ok c') : ∃ new, c'.added = c.added ++ new ∧
    ∀ x, x ∈ new ↔ ∃ k s t ls, Listed c listed k s ∧ make c.entries k s = .ok (t, ls) ∧ x ∈ ls := by
  obtain ⟨h1, h2, -⟩ := all_ok h c c' keys ho hc
  refine ⟨_, h2, fun x => ?_⟩
  rw [List.mem_flatMap]
  constructor
  · rintro ⟨k, hk, hx⟩
    obtain ⟨hl, v, hv⟩ := (ho.all k).1 hk
    unfold addedOf at hx
    cases v with
    | text s =>
      obtain ⟨t1, t2⟩ := outcome_text make c.entries k s hv
      cases hm : make c.entries k s with
      | error y => rw [(t1 y).2 hm] at hx; simp at hx
      | ok r => obtain ⟨t, ls⟩ := r; rw [t2 _ hm] at hx; exact ⟨k, s, t, ls, ⟨hl, hv⟩, hm, hx⟩
    | tag t => rw [outcome_other make _ k (by rw [hv]; simp)] at hx; simp at hx
    | other n => rw [outcome_other make _ k (by rw [hv]; simp)] at hx; simp at hx
  · rintro ⟨k, s, t, ls, ⟨hl, hs⟩, hm, hx⟩
    refine ⟨k, (ho.all k).2 ⟨hl, _, hs⟩, ?_⟩
    unfold addedOf
    rw [(outcome_text make c.entries k s hs).2 _ hm]
    exact hx

/-- C88. The entries do not depend on the order in which Python iterates over the set of keys, and neither does the set of labels and
dependencies that are added. -/
theorem C88_order (h : Apart make listed) (c : Context T L) (keys keys' : List Str) (ho : OrderOf c listed keys)
    (ho' : OrderOf c listed keys') (c1 : Context T L) (h1 : processTags make keys c = .ok c1) :
    ∃ c2, processTags make keys' c = .ok c2 ∧ (∀ k, c1.entries.get? k = c2.entries.get? k) ∧ c1.added.Perm c2.added := by
  obtain ⟨a1, a2, a3⟩ := all_ok h c c1 keys ho h1
  have hl : ∀ k ∈ keys', k ∈ listed := fun k hk => ((ho'.all k).1 hk).1
  obtain ⟨c2, b1, b2, b3⟩ := process_ok h keys' c ho'.once hl (fun k hk => a1 k (hl k hk))
  have hiff : ∀ k, k ∈ keys ↔ k ∈ keys' := fun k => (ho.all k).trans (ho'.all k).symm
  refine ⟨c2, b1, fun k => ?_, ?_⟩
  · rw [a3, b3]; simp only [hiff k]
  · rw [a2, b2]
    exact List.Perm.append_left _ (((List.perm_ext_iff_of_nodup ho.once ho'.once).2 hiff).flatMap_right _)

/-- C88. What is added does not depend on the order either, if only one entry adds anything (like `body`, of the default entries).
Missing: several entries that add labels, for which the order of the labels depends on that of the set, see `C88_added_refuted`. -/
theorem C88_added_partial (h : Apart make listed) (c : Context T L) (keys keys' : List Str) (ho : OrderOf c listed keys)
    (ho' : OrderOf c listed keys') (c1 c2 : Context T L) (h1 : processTags make keys c = .ok c1)
    (h2 : processTags make keys' c = .ok c2) (one : Str)
    (hone : ∀ k s t ls, Listed c listed k s → make c.entries k s = .ok (t, ls) → k ≠ one → ls = []) :
    c1.added = c2.added := by
  obtain ⟨a1, a2, -⟩ := all_ok h c c1 keys ho h1
  obtain ⟨b1, b2, -⟩ := all_ok h c c2 keys' ho' h2
  have hnil : ∀ k ∈ listed, k ≠ one → addedOf make c.entries k = [] := by
    intro k hk hne
    unfold addedOf
    cases hg : c.entries.get? k with
    | none => rw [outcome_other make _ k (by rw [hg]; simp)]
    | some v =>
      cases v with
      | text s =>
        obtain ⟨t1, t2⟩ := outcome_text make c.entries k s hg
        cases hm : make c.entries k s with
        | error x => rw [(t1 x).2 hm]
        | ok r => obtain ⟨t, ls⟩ := r; rw [t2 _ hm]; exact hone k s t ls ⟨hk, hg⟩ hm hne
      | tag t => rw [outcome_other make _ k (by rw [hg]; simp)]
      | other n => rw [outcome_other make _ k (by rw [hg]; simp)]
  have key : ∀ l : List Str, l.Nodup → (∀ k ∈ l, k ∈ listed) →
      l.flatMap (addedOf make c.entries) = if one ∈ l then addedOf make c.entries one else [] := by
    intro l
    induction l with
    | nil => simp
    | cons a l ih =>
      intro hn hl
      rw [List.nodup_cons] at hn
      rw [List.flatMap_cons, ih hn.2 (fun k hk => hl k (List.mem_cons_of_mem _ hk))]
      by_cases ha : a = one
      · subst ha
        rw [if_neg hn.1, if_pos (by simp), List.append_nil]
      · rw [hnil a (hl a (by simp)) ha, List.nil_append]
        simp only [List.mem_cons, fun hc : one = a => ha hc.symm, false_or]
        by_cases hm : one ∈ l
        · rw [if_pos hm, if_pos (.inr hm)]
        · rw [if_neg hm, if_neg]
          rintro (hc | hc)
          · exact ha hc.symm
          · exact hm hc
  rw [a2, b2, key keys ho.once (fun k hk => ((ho.all k).1 hk).1), key keys' ho'.once (fun k hk => ((ho'.all k).1 hk).1)]
  have hiff : one ∈ keys ↔ one ∈ keys' := (ho.all one).trans (ho'.all one).symm
  simp only [hiff]

/-- C88. Processing a context again changes nothing: the tags stay, and nothing is added twice. -/
theorem C88_again (h : Apart make listed) (c c' : Context T L) (keys keys' : List Str) (ho : OrderOf c listed keys)
    (hc : processTags make keys c = .ok c') (ho' : OrderOf c' listed keys') : processTags make keys' c' = .ok c' := by
  have hp := C88_processed h c c' keys ho hc
  have hno : ∀ k ∈ keys', ∀ s, c'.entries.get? k ≠ some (.text s) := by
    intro k hk s hs
    have hl := ((ho'.all k).1 hk).1
    by_cases ht : ∃ s, Listed c listed k s
    · obtain ⟨s', hs'⟩ := ht
      obtain ⟨t, ls, -, ht⟩ := hp.made k s' hs'
      rw [ht] at hs
      cases hs
    · have := hp.kept k (fun s hs => ht ⟨s, hs⟩)
      rw [this] at hs
      exact ht ⟨s, hl, hs⟩
  clear ho'
  induction keys' with
  | nil => rfl
  | cons k keys' ih =>
    have := (entry_outcome (make := make) c' k).2.1 (outcome_other make _ k (hno k (by simp)))
    simp only [processTags, this]
    exact ih fun x hx => hno x (List.mem_cons_of_mem _ hx)

/-! ### Cases -/

/-- A tag is its name and its text with the macro `@m` replaced; its labels are the characters of its text; `!` is an error. -/
def makeEx : Maker (Str × Str) Char Unit := fun e k s =>
  let m : Str := match e.get? "@m".toList with
    | some (.text m) => m
    | _ => []
  if '!' ∈ s then .error () else .ok ((k, s ++ m), if k = "toc".toList then [] else s)

def ctxEx : Context (Str × Str) Char :=
  ⟨[("body".toList, .text "ab".toList), ("@m".toList, .text "m".toList), ("toc".toList, .text "all".toList), ("targets".toList, .text "html".toList),
    ("next".toList, .other 3), ("title".toList, .text "t".toList)], []⟩

theorem apartEx (listed : List Str) (h : "@m".toList ∉ listed) : Apart makeEx listed := by
  intro e e' k s he
  unfold makeEx
  rw [he _ h]

example : OrderOf ctxEx ["body".toList, "toc".toList, "next".toList, "prev".toList] ["next".toList, "body".toList, "toc".toList] where
  once := by decide
  all := by
    intro k
    constructor
    · intro h
      simp only [List.mem_cons, List.not_mem_nil, or_false] at h
      rcases h with rfl | rfl | rfl
      · exact ⟨by decide, _, rfl⟩
      · exact ⟨by decide, _, rfl⟩
      · exact ⟨by decide, _, rfl⟩
    · rintro ⟨h, v, hv⟩
      simp only [List.mem_cons, List.not_mem_nil, or_false] at h
      rcases h with rfl | rfl | rfl | rfl
      · decide
      · decide
      · decide
      · exact absurd hv (by rw [show ctxEx.entries.get? "prev".toList = none from rfl]; simp)

example : (processTags makeEx ["next".toList, "body".toList, "toc".toList] ctxEx).toOption =
    some ⟨[("body".toList, .tag ("body".toList, "abm".toList)), ("@m".toList, .text "m".toList), ("toc".toList, .tag ("toc".toList, "allm".toList)),
      ("targets".toList, .text "html".toList), ("next".toList, .other 3), ("title".toList, .text "t".toList)], "ab".toList⟩ := by decide +kernel

theorem orderEx : OrderOf ctxEx ["body".toList, "title".toList] ["title".toList, "body".toList] ∧
    OrderOf ctxEx ["body".toList, "title".toList] ["body".toList, "title".toList] := by
  refine ⟨⟨by decide, fun k => ⟨fun h => ?_, fun h => ?_⟩⟩, ⟨by decide, fun k => ⟨fun h => ?_, fun h => h.1⟩⟩⟩
  · simp only [List.mem_cons, List.not_mem_nil, or_false] at h
    rcases h with rfl | rfl
    · exact ⟨by decide, _, rfl⟩
    · exact ⟨by decide, _, rfl⟩
  · have := h.1
    simp only [List.mem_cons, List.not_mem_nil, or_false] at this ⊢
    exact this.symm
  · simp only [List.mem_cons, List.not_mem_nil, or_false] at h
    rcases h with rfl | rfl
    · exact ⟨by decide, _, rfl⟩
    · exact ⟨by decide, _, rfl⟩

/-- C88. With two entries that add labels, the order of the labels depends on the order of the set of keys. -/
theorem C88_added_refuted : ∃ (make : Maker (Str × Str) Char Unit) (c : Context (Str × Str) Char) (listed keys keys' : List Str)
    (c1 c2 : Context (Str × Str) Char), Apart make listed ∧ OrderOf c listed keys ∧ OrderOf c listed keys' ∧
    processTags make keys c = .ok c1 ∧ processTags make keys' c = .ok c2 ∧ c1.added ≠ c2.added :=
  ⟨makeEx, ctxEx, ["body".toList, "title".toList], _, _, _, _, apartEx _ (by decide), orderEx.1, orderEx.2, rfl, rfl, by decide⟩

end Verif.HeaderTags
