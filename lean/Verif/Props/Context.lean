import Verif.Lemmas.Context

/-!
# C06, C07, C08: context updates, inheritance and reset
-/

set_option linter.unusedSimpArgs false
set_option linter.unusedVariables false

namespace Verif.Context

open Verif Verif.Context.Spec

/-! ### Concrete data for the non-vacuity checks -/

/-- A simple reading of text: lists and dicts are not split, `true`/`false` and the digit `7`
are understood. -/
def samplePy : Py where
  strToList s := [s]
  strToDict s := [("text".toList, s)]
  toInt
    | .str s => if s = "7".toList then .ok 7 else .valueError
    | .int i => .ok i
    | .bool b => .ok (if b then 1 else 0)
    | .float i => .ok i
    | _ => .typeError
  toFloat
    | .str s => if s = "7".toList then .ok 7 else .valueError
    | .int i => .ok i
    | .float i => .ok i
    | .bool b => .ok (if b then 1 else 0)
    | _ => .typeError
  readBool s := if s = "true".toList then some true else if s = "false".toList then some false else none

/-- Text can be parsed as a number or raises a `ValueError`: never a `TypeError`. -/
def TextConverts (P : Py) : Prop := ∀ s, P.toInt (.str s) ≠ .typeError ∧ P.toFloat (.str s) ≠ .typeError

theorem samplePy_converts : TextConverts samplePy := by
  intro s; simp only [samplePy]; constructor <;> split <;> simp

/-- Address 0: a context with a text, a list and a dict; address 3: changes. -/
def sampleHeap : Heap :=
  [.dict [("title".toList, .atom (.str "A".toList)), ("targets".toList, .ref 1), ("style".toList, .ref 2),
     ("depth".toList, .atom (.int 2))],
   .list [.atom (.str ".html".toList)],
   .dict [("color".toList, .atom (.str "red".toList))],
   .dict [("title".toList, .atom (.str "B".toList)), ("targets".toList, .atom (.str ".tex".toList)),
     ("depth".toList, .atom (.str "seven".toList)), ("style".toList, .ref 4), ("author".toList, .atom (.str "C".toList))],
   .dict [("color".toList, .atom (.str "blue".toList)), ("size".toList, .atom (.str "big".toList))]]

def sampleF : FCtx :=
  [("title".toList, .atom (.str "A".toList)), ("targets".toList, .list [.atom (.str ".html".toList)]),
   ("style".toList, .dict [("color".toList, .str "red".toList)]), ("depth".toList, .atom (.int 2))]

def sampleG : FCtx :=
  [("title".toList, .atom (.str "B".toList)), ("targets".toList, .atom (.str ".tex".toList)),
   ("depth".toList, .atom (.str "seven".toList)),
   ("style".toList, .dict [("color".toList, .str "blue".toList), ("size".toList, .str "big".toList)]),
   ("author".toList, .atom (.str "C".toList))]

/-- The content of a dict of immutable values. -/
def atomsOf : Dict Str Value → Option (Dict Str Atom)
  | [] => some []
  | (k, .atom a) :: d => (atomsOf d).map ((k, a) :: ·)
  | (_, .ref _) :: _ => none

/-- The content of a value, if it is flat: a computable form of `Shows`. -/
def flatVal (h : Heap) : Value → Option FVal
  | .atom a => some (.atom a)
  | .ref o => match h[o]? with
    | some (.list l) => some (.list l)
    | some (.set l) => some (.set l)
    | some (.dict d) => (atomsOf d).map .dict
    | none => none

theorem atomsOf_eq (d : Dict Str Value) (r : Dict Str Atom) (h : atomsOf d = some r) :
    d = r.map fun kv => (kv.1, .atom kv.2) := by
  induction d generalizing r with
  | nil => simp [atomsOf] at h; subst h; rfl
  | cons kv d ih =>
    obtain ⟨k, v⟩ := kv
    cases v with
    | ref o => simp [atomsOf] at h
    | atom a =>
      simp only [atomsOf, Option.map_eq_some_iff] at h
      obtain ⟨r', h1, rfl⟩ := h
      simp [← ih r' h1]

theorem shows_of_flatVal (h : Heap) (v : Value) (f : FVal) (hf : flatVal h v = some f) : Shows h v f := by
  cases v with
  | atom a => simp [flatVal] at hf; subst hf; rfl
  | ref o =>
    simp only [flatVal] at hf
    split at hf
    · simp at hf; subst hf; rename_i l hl; exact ⟨o, rfl, hl⟩
    · simp at hf; subst hf; rename_i l hl; exact ⟨o, rfl, hl⟩
    · rename_i d hd
      simp only [Option.map_eq_some_iff] at hf
      obtain ⟨r, hr, rfl⟩ := hf
      exact ⟨o, rfl, by rw [hd]; simp [FVal.obj, ← atomsOf_eq d r hr]⟩
    · simp at hf

theorem content_of_flatVal (h : Heap) (a : Nat) (d : Dict Str Value) (F : FCtx) (hd : h[a]? = some (.dict d))
    (hn : d.keys.Nodup) (hk : d.keys = F.keys)
    (hf : ∀ k ∈ d.keys, ((d.get? k).bind (flatVal h)) = F.get? k) : Content h a F := by
  refine ⟨d, hd, hn, hk, ?_⟩
  intro k v f hv hF
  have := hf k ((Dict.get?_isSome_iff d k).1 (by simp [hv]))
  rw [hv, hF] at this
  exact shows_of_flatVal h v f (by simpa using this)

theorem sample_content : Content sampleHeap 0 sampleF ∧ Content sampleHeap 3 sampleG :=
  ⟨content_of_flatVal _ _ (entries sampleHeap 0) _ rfl (by decide) rfl (by decide),
   content_of_flatVal _ _ (entries sampleHeap 3) _ rfl (by decide) rfl (by decide)⟩

/-- The references among the entries of a dict. -/
theorem getKey_mem (h : Heap) (a : Nat) (k : Str) (v : Value) (hk : getKey h a k = some v) :
    (k, v) ∈ entries h a := by
  unfold getKey at hk
  split at hk
  · rename_i d hd; rw [entries_eq hd]; exact Dict.mem_of_get? _ _ _ hk
  · simp at hk

theorem separate_of_entries (h : Heap) (a : Nat)
    (h1 : ∀ x ∈ entries h a, x.2 ≠ .ref a)
    (h2 : ∀ x ∈ entries h a, ∀ y ∈ entries h a, x.2 = y.2 → (∃ o, x.2 = .ref o) → x.1 = y.1) : Separate h a :=
  ⟨fun k hk => h1 _ (getKey_mem _ _ _ _ (holds_iff.1 hk)) rfl,
   fun k k' o hk hk' => h2 _ (getKey_mem _ _ _ _ (holds_iff.1 hk)) _ (getKey_mem _ _ _ _ (holds_iff.1 hk')) rfl ⟨o, rfl⟩⟩

theorem disjoint_of_entries (h : Heap) (a b : Nat)
    (h1 : ∀ x ∈ entries h b, x.2 ≠ .ref a)
    (h2 : ∀ x ∈ entries h b, ∀ y ∈ entries h a, x.2 = y.2 → ¬ ∃ o, x.2 = .ref o) : Disjoint h a b := by
  intro k k' o hk
  refine ⟨?_, ?_⟩
  · rintro rfl; exact h1 _ (getKey_mem _ _ _ _ (holds_iff.1 hk)) rfl
  · intro hk'; exact h2 _ (getKey_mem _ _ _ _ (holds_iff.1 hk)) _ (getKey_mem _ _ _ _ (holds_iff.1 hk')) rfl ⟨o, rfl⟩

theorem sample_separate : Separate sampleHeap 0 ∧ Disjoint sampleHeap 0 3 := by
  refine ⟨separate_of_entries _ _ (by decide) ?_, disjoint_of_entries _ _ _ (by decide) ?_⟩
  · simp [sampleHeap, entries]
  · simp [sampleHeap, entries]

/-! ### C06 -/

/-- C06. An update by value. A context whose mutable entries are its own, updated with changes that
share no mutable value with it: either some entry raises, or afterwards

* entries that are not in the changes are as they were;
* entries that were missing are those of the changes;
* existing entries keep their kind of value;
* existing entries keep their value if overwriting was turned off. -/
theorem C06_update_partial (P : Py) (replace : List Str) (overwrite : Bool) (h : Heap) (ctx changes : Nat)
    (F G : FCtx) (hF : Content h ctx F) (hsep : Separate h ctx) (hG : Content h changes G)
    (hdis : Disjoint h ctx changes) (h' : Heap)
    (hok : update P replace overwrite h ctx changes = .ok h') :
    ∃ F', Content h' ctx F' ∧ Separate h' ctx ∧ ∀ k,
      (G.get? k = none → F'.get? k = F.get? k) ∧
      (F.get? k = none → F'.get? k = G.get? k) ∧
      (∀ v, F.get? k = some v → ∃ v', F'.get? k = some v' ∧ v'.kind = v.kind) ∧
      (overwrite = false → ∀ v, F.get? k = some v → F'.get? k = some v) := by
  obtain ⟨d, hd, hdn, hds⟩ := hF
  obtain ⟨ch, hc, hcn, hcs⟩ := hG
  have href := matchUpdate_refines P 3 replace overwrite ch.keys (own_of_content hd hdn hds hsep)
    (chg_of_disjoint hd hc hcs hdis)
  unfold update at hok
  rw [entries_eq hc] at hok
  unfold Refines at href
  cases hfu : fupdate P replace overwrite F G ch.keys with
  | error e =>
    rw [hfu] at href
    have href : _ = Except.error e := href
    have : matchUpdate P (3 + 2) replace overwrite h ctx ch ch.keys = .ok h' := hok
    rw [href] at this; simp at this
  | ok F' =>
    rw [hfu] at href
    obtain ⟨h1, d1, e1, o1, f1⟩ := href
    have : matchUpdate P (3 + 2) replace overwrite h ctx ch ch.keys = .ok h' := hok
    rw [e1] at this
    simp at this; subst this
    refine ⟨F', o1.content, o1.separate, ?_⟩
    intro k
    have g := fupdate_get P replace overwrite G ch.keys hcn F F' hfu k
    have hk : k ∈ ch.keys ↔ G.get? k ≠ none := by
      rw [hcs.1, ← Dict.get?_isSome_iff]; cases G.get? k <;> simp
    have hk2 : G.get? k = none → F'.get? k = F.get? k := fun hg => g.2 (by rw [hk]; simp [hg])
    refine ⟨hk2, ?_, ?_, ?_⟩
    · intro hn
      cases hg : G.get? k with
      | none => rw [hk2 hg, hn]
      | some c =>
        have := g.1 (by rw [hk]; simp [hg])
        rw [hg, hn] at this
        simp [stepVal] at this
        exact this.symm
    · intro v hv
      cases hg : G.get? k with
      | none => exact ⟨v, by rw [hk2 hg, hv], rfl⟩
      | some c =>
        have := g.1 (by rw [hk]; simp [hg])
        rw [hg, hv] at this
        simp only [stepVal] at this
        cases overwrite with
        | false => simp at this; exact ⟨v, this.symm, rfl⟩
        | true =>
          simp at this
          cases hm : merge P (decide (k ∈ replace)) v c with
          | error e => rw [hm] at this; simp [Except.map] at this
          | ok v' => rw [hm] at this; simp [Except.map] at this; exact ⟨v', this.symm, merge_kind P _ _ _ _ hm⟩
    · rintro rfl v hv
      cases hg : G.get? k with
      | none => rw [hk2 hg, hv]
      | some c =>
        have := g.1 (by rw [hk]; simp [hg])
        rw [hg, hv] at this
        simpa [stepVal] using this.symm

/-- The update of the sample succeeds, and its heap is the expected one. -/
example : (update samplePy [] true sampleHeap 0 3).toOption.map (fun h => (entries h 0, h[1]?, h[2]?)) =
    some ([("title".toList, .atom (.str "B".toList)), ("targets".toList, .ref 1), ("style".toList, .ref 2),
      ("depth".toList, .atom (.int 2)), ("author".toList, .atom (.str "C".toList))],
     some (.list [.atom (.str ".tex".toList), .atom (.str ".html".toList)]),
     some (.dict [("color".toList, .atom (.str "blue".toList)), ("size".toList, .atom (.str "big".toList))])) := by
  decide

/-- C06. What an existing entry becomes: a list gets the items of the change in front (alone, if
it is one of the entries to replace), a set gets them added, text replaces text, the text of a number
or truth value replaces it if it can be read. -/
theorem C06_values_partial (P : Py) (replace : List Str) (h : Heap) (ctx changes : Nat)
    (F G : FCtx) (hF : Content h ctx F) (hsep : Separate h ctx) (hG : Content h changes G)
    (hdis : Disjoint h ctx changes) (h' : Heap)
    (hok : update P replace true h ctx changes = .ok h') :
    ∃ F', Content h' ctx F' ∧ ∀ k,
      (∀ l s, F.get? k = some (.list l) → G.get? k = some (.atom (.str s)) →
        F'.get? k = some (.list ((P.strToList s).map (fun x => .atom (.str x)) ++
          if k ∈ replace then [] else l))) ∧
      (∀ l l', F.get? k = some (.list l) → G.get? k = some (.list l') →
        F'.get? k = some (.list (l' ++ if k ∈ replace then [] else l))) ∧
      (∀ l l', F.get? k = some (.set l) → G.get? k = some (.set l') →
        ∃ m, F'.get? k = some (.set m) ∧ ∀ x, x ∈ m ↔ x ∈ l' ∨ (k ∉ replace ∧ x ∈ l)) ∧
      (∀ s s', F.get? k = some (.atom (.str s)) → G.get? k = some (.atom (.str s')) →
        F'.get? k = some (.atom (.str s'))) ∧
      (∀ i s, F.get? k = some (.atom (.int i)) → G.get? k = some (.atom (.str s)) →
        F'.get? k = some (.atom (.int (match P.toInt (.str s) with | .ok j => j | _ => i)))) ∧
      (∀ b s, F.get? k = some (.atom (.bool b)) → G.get? k = some (.atom (.str s)) →
        F'.get? k = some (.atom (.bool ((P.readBool s).getD b)))) := by
  obtain ⟨d, hd, hdn, hds⟩ := hF
  obtain ⟨ch, hc, hcn, hcs⟩ := hG
  have href := matchUpdate_refines P 3 replace true ch.keys (own_of_content hd hdn hds hsep)
    (chg_of_disjoint hd hc hcs hdis)
  unfold update at hok
  rw [entries_eq hc] at hok
  unfold Refines at href
  cases hfu : fupdate P replace true F G ch.keys with
  | error e =>
    rw [hfu] at href
    have href : _ = Except.error e := href
    have : matchUpdate P (3 + 2) replace true h ctx ch ch.keys = .ok h' := hok
    rw [href] at this; simp at this
  | ok F' =>
    rw [hfu] at href
    obtain ⟨h1, d1, e1, o1, f1⟩ := href
    have : matchUpdate P (3 + 2) replace true h ctx ch ch.keys = .ok h' := hok
    rw [e1] at this
    simp at this; subst this
    refine ⟨F', o1.content, ?_⟩
    intro k
    have g : ∀ o c, F.get? k = some o → G.get? k = some c →
        (merge P (decide (k ∈ replace)) o c).map some = .ok (F'.get? k) := by
      intro o c ho hc'
      have := (fupdate_get P replace true G ch.keys hcn F F' hfu k).1
        (by rw [hcs.1, ← Dict.get?_isSome_iff, hc']; rfl)
      rw [ho, hc'] at this
      simpa [stepVal] using this
    refine ⟨?_, ?_, ?_, ?_, ?_, ?_⟩
    · intro l s ho hc'
      have := g _ _ ho hc'
      simp [merge, changeAtom_eq, immutable_eq, fresh_eq, FVal.toList, bind, Except.bind, Except.map] at this
      exact this.symm
    · intro l s ho hc'
      have := g _ _ ho hc'
      simp [merge, changeAtom_eq, immutable_eq, fresh_eq, FVal.toList, bind, Except.bind, Except.map] at this
      exact this.symm
    · intro l l' ho hc'
      have := g _ _ ho hc'
      simp only [merge, changeAtom_eq, immutable_eq, fresh_eq, FVal.toList, bind, Except.bind] at this
      by_cases hh : l'.all hashable = true
      · rw [if_pos hh] at this
        simp [Except.map] at this
        refine ⟨_, this.symm, ?_⟩
        have hu : ∀ (xs ys : List Value) x, x ∈ setUnion xs ys ↔ x ∈ ys ∨ x ∈ xs := by
          intro xs ys x
          unfold setUnion
          induction ys generalizing xs with
          | nil => simp
          | cons y ys ih =>
            simp only [List.foldl_cons]
            rw [ih]
            by_cases hy : y ∈ xs
            · simp [hy]
              constructor
              · rintro (h | h) <;> simp [h]
              · rintro ((rfl | h) | h)
                · exact .inr hy
                · exact .inl h
                · exact .inr h
            · simp [hy]
              constructor
              · rintro (h | h | h) <;> simp [h]
              · rintro ((h | h) | h) <;> simp [h]
        intro x
        rw [hu]
        by_cases hk : k ∈ replace <;> simp [hk]
      · rw [if_neg hh] at this
        simp [Except.map] at this
    · intro s s' ho hc'
      have := g _ _ ho hc'
      simp [merge, changeAtom_eq, immutable_eq, fresh_eq, mergeAtom, FVal.asValue, bind, Except.bind, Except.map] at this
      exact this.symm
    · intro i s ho hc'
      have := g _ _ ho hc'
      simp only [merge, changeAtom_eq, immutable_eq, fresh_eq, mergeAtom, FVal.asValue, bind, Except.bind] at this
      cases hi : P.toInt (.str s) <;> rw [hi] at this <;> simp [Except.map] at this
      · simp [← this]
      · simp [← this]
    · intro b s ho hc'
      have := g _ _ ho hc'
      simp [merge, changeAtom_eq, immutable_eq, fresh_eq, mergeAtom, FVal.asValue, bind, Except.bind, Except.map] at this
      exact this.symm

theorem merge_text_ok (P : Py) (hP : TextConverts P) (r : Bool) (o : FVal) (s : Str) :
    ∃ v, merge P r o (.atom (.str s)) = .ok v := by
  have atom : ∀ (a : Atom) (s : Str), ∃ a', mergeAtom P a (.atom (.str s)) = .ok a' := by
    intro a s
    obtain ⟨h1, h2⟩ := hP s
    cases a with
    | int i => simp only [mergeAtom]; cases h : P.toInt (.str s) <;> simp_all
    | float i => simp only [mergeAtom]; cases h : P.toFloat (.str s) <;> simp_all
    | none => simp [mergeAtom]
    | str x => simp [mergeAtom]
    | bool x => simp [mergeAtom]
    | tag x y => simp [mergeAtom]
    | other x y => simp [mergeAtom]
  cases o with
  | atom a =>
    obtain ⟨a', ha⟩ := atom a s
    simp only [merge, changeAtom_eq, immutable_eq, fresh_eq, FVal.asValue, ha, bind, Except.bind]; exact ⟨_, rfl⟩
  | list l => simp only [merge, changeAtom_eq, immutable_eq, fresh_eq, FVal.toList, bind, Except.bind]; exact ⟨_, rfl⟩
  | set l =>
    simp only [merge, changeAtom_eq, immutable_eq, fresh_eq, FVal.toList, bind, Except.bind]
    rw [if_pos (by simp [hashable])]; exact ⟨_, rfl⟩
  | dict d =>
    simp only [merge, changeAtom_eq, immutable_eq, fresh_eq, FVal.toDict, bind, Except.bind]
    have : ∀ (cs : Dict Str Str) (keys : List Str) (d : Dict Str Atom),
        ∃ d', keys.foldlM (mergeDictStep P (cs.map fun kv => (kv.1, Atom.str kv.2))) d = .ok d' := by
      intro cs keys
      induction keys with
      | nil => intro d; exact ⟨d, rfl⟩
      | cons k keys ih =>
        intro d
        simp only [List.foldlM_cons, mergeDictStep]
        cases hc : Dict.get? (cs.map fun kv => (kv.1, Atom.str kv.2)) k with
        | none => exact ih d
        | some c =>
          have hmem := Dict.mem_of_get? _ _ _ hc
          simp only [List.mem_map] at hmem
          obtain ⟨⟨k', s'⟩, _, he⟩ := hmem
          simp at he
          obtain ⟨_, rfl⟩ := he
          cases hd : d.get? k with
          | none => exact ih _
          | some a =>
            obtain ⟨a', ha⟩ := atom a s'
            simp only [ha, bind, Except.bind]
            exact ih _
    rw [mergeDict_eq]
    obtain ⟨d', hd'⟩ := this (P.strToDict s) (Dict.keys ((P.strToDict s).map fun kv => (kv.1, Atom.str kv.2)))
      (if r = true then [] else d)
    rw [hd']
    exact ⟨_, rfl⟩

/-- C06. A header, whose values are all text, can always be loaded: no text makes the update raise. -/
theorem C06_header_never_raises_partial (P : Py) (hP : TextConverts P) (replace : List Str) (overwrite : Bool)
    (h : Heap) (ctx changes : Nat) (F G : FCtx) (hF : Content h ctx F) (hsep : Separate h ctx)
    (hG : Content h changes G) (hdis : Disjoint h ctx changes)
    (htext : ∀ k v, G.get? k = some v → ∃ s, v = .atom (.str s)) :
    ∃ h', update P replace overwrite h ctx changes = .ok h' := by
  obtain ⟨d, hd, hdn, hds⟩ := hF
  obtain ⟨ch, hc, hcn, hcs⟩ := hG
  have href := matchUpdate_refines P 3 replace overwrite ch.keys (own_of_content hd hdn hds hsep)
    (chg_of_disjoint hd hc hcs hdis)
  have hok : ∃ F', fupdate P replace overwrite F G ch.keys = .ok F' := by
    rw [fupdate_ok_iff _ _ _ _ _ hcn]
    intro k hk
    unfold stepVal
    cases hg : G.get? k with
    | none => exact ⟨_, rfl⟩
    | some c =>
      obtain ⟨s, rfl⟩ := htext k c hg
      cases hf : F.get? k with
      | none => exact ⟨_, rfl⟩
      | some o =>
        cases overwrite with
        | false => exact ⟨_, rfl⟩
        | true =>
          obtain ⟨v, hv⟩ := merge_text_ok P hP (decide (k ∈ replace)) o s
          simp only [Bool.not_true, Bool.false_eq_true, if_false]
          rw [hv]; exact ⟨_, rfl⟩
  obtain ⟨F', hF'⟩ := hok
  unfold Refines at href
  rw [hF'] at href
  obtain ⟨h1, _, e1, _, _⟩ := href
  unfold update
  rw [entries_eq hc]
  exact ⟨h1, e1⟩

/-- C06. At any nesting, for all contexts and changes (shared or not): in a context class without entries
to replace, every entry of every dict keeps its kind of value. -/
theorem C06_kinds_at_any_depth (P : Py) (overwrite : Bool) (h : Heap) (ctx changes : Nat) (h' : Heap)
    (hok : update P [] overwrite h ctx changes = .ok h') (a : Nat) (k : Str) (v : Value) (κ : Kind)
    (hv : getKey h a k = some v) (hκ : kind h v = some κ) :
    ∃ v', getKey h' a k = some v' ∧ kind h' v' = some κ := by
  have ev := matchUpdate_evolves_all P _ overwrite h ctx _ _ h' hok
  unfold getKey at hv
  split at hv
  · rename_i d hd
    obtain ⟨obj', h1, _, h3⟩ := ev a _ hd
    obtain ⟨d', rfl, h4⟩ := h3 trivial d rfl
    obtain ⟨v', h5, h6⟩ := h4 k v hv
    refine ⟨v', by simp [getKey, h1, h5], ?_⟩
    have keep : ∀ w, kind h w = some κ → kind h' w = some κ := by
      intro w hw
      cases w with
      | atom x => exact hw
      | ref o =>
        simp only [kind, Option.map_eq_some_iff] at hw ⊢
        obtain ⟨obj, e1, e2⟩ := hw
        obtain ⟨obj'', e3, e4, _⟩ := ev o obj e1
        exact ⟨obj'', e3, by rw [e4, e2]⟩
    rcases h6 with rfl | ⟨x, y, rfl, rfl, e⟩
    · exact keep _ hκ
    · simp only [kind] at hκ ⊢; rw [e, hκ]
  · simp at hv

/-- C06. For every context class: a list stays a list, a set a set, a dict a dict, wherever it is. -/
theorem C06_objects_keep_their_kind (P : Py) (replace : List Str) (overwrite : Bool) (h : Heap)
    (ctx changes : Nat) (h' : Heap) (hok : update P replace overwrite h ctx changes = .ok h')
    (o : Nat) (κ : Kind) (hκ : kind h (.ref o) = some κ) : kind h' (.ref o) = some κ := by
  have ev := matchUpdate_evolves_kind P _ replace overwrite h ctx _ _ h' hok
  simp only [kind, Option.map_eq_some_iff] at hκ ⊢
  obtain ⟨obj, e1, e2⟩ := hκ
  obtain ⟨obj'', e3, e4, _⟩ := ev o obj e1
  exact ⟨obj'', e3, by rw [e4, e2]⟩

/-- Finding: a truth value cannot be updated with a truth value; `match_update` raises. So a child whose
initial values contain a truth value that its parent also has cannot be created. -/
theorem C06_bool_update_raises : update samplePy [] true
    [.dict [("flag".toList, .atom (.bool true))], .dict [("flag".toList, .atom (.bool false))]] 0 1 =
    .error .attributeError := rfl

/-! ### C07 -/

/-- The dict at `p`, if any, is flat: its mutable entries hold only immutable values. -/
def FlatParent (h : Heap) (parent : Option Nat) : Prop := ∀ p, parent = some p → ∃ F, Content h p F

theorem sources_of_flat {h : Heap} {parent : Option Nat} {initial : Nat} {Fi : FCtx}
    (hp : FlatParent h parent) (hi : Content h initial Fi) :
    ∃ Fp, Sources h.length h parent Fp initial Fi ∧ (∀ p, Fp = some p → p.keys.Nodup) ∧
      (∀ p F, parent = some p → Content h p F → ∃ G, Fp = some G ∧ G.keys = F.keys) := by
  cases parent with
  | none => exact ⟨none, ⟨Nat.le_refl _, trivial, early_of_content hi⟩, by simp, by simp⟩
  | some p =>
    obtain ⟨F, hF⟩ := hp p rfl
    refine ⟨some F, ⟨Nat.le_refl _, early_of_content hF, early_of_content hi⟩, ?_, ?_⟩
    · intro q hq
      simp at hq; subst hq
      obtain ⟨d, _, h2, h3⟩ := hF
      rw [← h3.1]; exact h2
    · intro q F' hq hF'
      simp at hq; subst hq
      refine ⟨F, rfl, ?_⟩
      obtain ⟨d, h1, h2, h3⟩ := hF
      obtain ⟨d', h1', h2', h3'⟩ := hF'
      rw [h1] at h1'; simp at h1'; subst h1'
      rw [← h3.1, ← h3'.1]

/-- C07. Whatever happens to a context after its creation (updates, resets), every object that existed
before, in particular its parent context, all of the parent's mutable values, the initial values and
every other context, is as it was.

Partial: the mutable entries of the parent and of the initial values hold only immutable values. With
mutable values nested deeper it is false: `C07_nested_values_are_shared`. -/
theorem C07_others_untouched_partial (P : Py) (c : Cls) (h : Heap) (parent : Option Nat) (initial : Nat)
    (Fi : FCtx) (hp : FlatParent h parent) (hi : Content h initial Fi)
    (h1 : Heap) (ctx : Nat) (hcreate : create P c h parent initial = .ok (h1, ctx))
    (ops : List Op) (hops : OpsOk ops) (h2 : Heap) (hrun : runOps P c ctx parent initial h1 ops = .ok h2) :
    (∀ a < h.length, h1[a]? = h[a]?) ∧ ∀ a < h.length, h2[a]? = h[a]? := by
  obtain ⟨Fp, hs, _, _⟩ := sources_of_flat hp hi
  have hc := create_later P c h parent Fp initial Fi hs
  cases hf : freset P c [] Fp Fi with
  | error e =>
    rw [hf] at hc
    have hc : _ = Except.error e := hc
    rw [hc] at hcreate; simp at hcreate
  | ok F1 =>
    rw [hf] at hc
    obtain ⟨h1', e1, l1, s1, f1⟩ := hc
    rw [e1] at hcreate
    simp at hcreate
    obtain ⟨rfl, rfl⟩ := hcreate
    refine ⟨f1, ?_⟩
    have hr := runOps_later P c h.length ops hops s1 l1
    cases hf2 : ops.foldlM (frunOp P c Fp Fi) F1 with
    | error e =>
      rw [hf2] at hr
      have hr : _ = Except.error e := hr
      rw [hr] at hrun; simp at hrun
    | ok F2 =>
      rw [hf2] at hr
      obtain ⟨h2', e2, _, _, f2⟩ := hr
      rw [e2] at hrun
      simp at hrun; subst hrun
      intro a ha
      rw [f2 a ha, f1 a ha]

/-- C07. An update changes nothing but the context and its own mutable values; in particular not the
dict of changes or its values. -/
theorem C07_changes_untouched_partial (P : Py) (replace : List Str) (overwrite : Bool) (h : Heap)
    (ctx changes : Nat) (F G : FCtx) (hF : Content h ctx F) (hsep : Separate h ctx)
    (hG : Content h changes G) (hdis : Disjoint h ctx changes) (h' : Heap)
    (hok : update P replace overwrite h ctx changes = .ok h') (a : Nat) (ha : a < h.length)
    (hctx : a ≠ ctx) (hval : ∀ k, getKey h ctx k ≠ some (.ref a)) : h'[a]? = h[a]? := by
  obtain ⟨d, hd, hdn, hds⟩ := hF
  obtain ⟨ch, hc, hcn, hcs⟩ := hG
  have href := matchUpdate_refines P 3 replace overwrite ch.keys (own_of_content hd hdn hds hsep)
    (chg_of_disjoint hd hc hcs hdis)
  unfold update at hok
  rw [entries_eq hc] at hok
  have hok : matchUpdate P (3 + 2) replace overwrite h ctx ch ch.keys = .ok h' := hok
  unfold Refines at href
  cases hfu : fupdate P replace overwrite F G ch.keys with
  | error e =>
    rw [hfu] at href
    have href : _ = Except.error e := href
    rw [href] at hok; simp at hok
  | ok F' =>
    rw [hfu] at href
    obtain ⟨h1, d1, e1, o1, f1⟩ := href
    rw [e1] at hok; simp at hok; subst hok
    apply f1.2 a _ ha
    rintro (rfl | ⟨k, hk⟩)
    · exact hctx rfl
    · exact hval k hk

/-- The values of the class attributes of `DocumentContext` used in the examples. -/
def sampleCls : Cls where
  replace := ["targets".toList]
  exclude := ["paths".toList]
  doNotInherit := ["paths".toList, "body".toList]

/-- A history: a header is loaded, the context is reset, another header is loaded. -/
def sampleOps : List Op :=
  [.update [("title".toList, .atom (.str "B".toList)), ("targets".toList, .atom (.str ".tex".toList))] true,
   .reset,
   .update [("style".toList, .dict [("color".toList, .str "green".toList)]), ("paths".toList, .list [])] true]

/-- The child of the context at 0 with the initial values at 3, and its history: all succeed, and the child
does change. -/
example : FlatParent sampleHeap (some 0) ∧ Content sampleHeap 3 sampleG ∧ OpsOk sampleOps ∧
    ((do
      let (h1, ctx) ← create samplePy sampleCls sampleHeap (some 0) 3
      let h2 ← runOps samplePy sampleCls ctx (some 0) 3 h1 sampleOps
      pure ((getKey h2 ctx "paths".toList).bind (flatVal h2), getKey h2 ctx "title".toList)).toOption =
     some (some (.list []), some (.atom (.str "B".toList)))) := by
  refine ⟨?_, sample_content.2, ?_, by decide⟩
  · intro p hp; simp at hp; subst hp; exact ⟨_, sample_content.1⟩
  · intro G ow hG
    simp [sampleOps] at hG
    rcases hG with ⟨rfl, _⟩ | ⟨rfl, _⟩ <;> decide

/-- Finding: values nested two deep are shared between parent and child, since the copies are shallow.
Address 0 is a context with `label_resets: {chapter: {section}}` as in the default context; a child is
made of it and its header `label_resets: {chapter: figure}` is loaded. Then the set in the *parent*
has changed. -/
theorem C07_nested_values_are_shared :
    let h : Heap := [.dict [("label_resets".toList, .ref 1)], .dict [("chapter".toList, .ref 2)],
      .set [.atom (.str "section".toList)], .dict []]
    ((do
      let (h1, ctx) ← create samplePy sampleCls h (some 0) 3
      update samplePy sampleCls.replace true
        (h1 ++ [Obj.dict [("chapter".toList, .atom (.str "figure".toList))],
          Obj.dict [("label_resets".toList, .ref h1.length)]]) ctx (h1.length + 1)).toOption.bind
        (fun h2 => h2[2]?)) =
      some (Obj.set [.atom (.str "section".toList), .atom (.str "figure".toList)]) := by decide

/-! ### C08 -/

theorem resetVal_not_excluded (P : Py) (c : Cls) (Fp : Option FCtx) (Fi : FCtx) (k : Str) (h : k ∉ c.exclude)
    (o o' : Option FVal) : resetVal P c Fp Fi k o = resetVal P c Fp Fi k o' := by
  simp [resetVal, h]

/-- C08. A context is created, anything happens to it, and it is reset. The reset does not raise, and
afterwards every entry is as just after the creation, except that the entries excluded from resets are as
just before the reset. A second reset changes nothing.

Partial: as in C07 the mutable entries of the parent and the initial values are flat. It is assumed
that the entries excluded from resets are not initial values and not inherited: otherwise they
are merged again at each reset, see `C08_excluded_entry_grows`. -/
theorem C08_reset_partial (P : Py) (c : Cls) (h : Heap) (parent : Option Nat) (initial : Nat)
    (Fi : FCtx) (hp : FlatParent h parent) (hi : Content h initial Fi)
    (hexi : ∀ k ∈ c.exclude, Fi.get? k = none)
    (hexp : ∀ p F k, parent = some p → Content h p F → k ∈ c.exclude → k ∉ c.doNotInherit → F.get? k = none)
    (h1 : Heap) (ctx : Nat) (hcreate : create P c h parent initial = .ok (h1, ctx))
    (ops : List Op) (hops : OpsOk ops) (h2 : Heap) (hrun : runOps P c ctx parent initial h1 ops = .ok h2) :
    ∃ F1 F2 F3 h3, Content h1 ctx F1 ∧ Content h2 ctx F2 ∧
      reset P c h2 ctx parent initial = .ok h3 ∧ Content h3 ctx F3 ∧
      (∀ k, k ∉ c.exclude → F3.get? k = F1.get? k) ∧
      (∀ k ∈ c.exclude, F3.get? k = F2.get? k) ∧
      (∃ h4 F4, reset P c h3 ctx parent initial = .ok h4 ∧ Content h4 ctx F4 ∧ ∀ k, F4.get? k = F3.get? k) := by
  obtain ⟨Fp, hs, hpn, hpk⟩ := sources_of_flat hp hi
  have hin : Fi.keys.Nodup := by
    obtain ⟨d, _, h2, h3⟩ := hi
    rw [← h3.1]; exact h2
  have hc := create_later P c h parent Fp initial Fi hs
  -- the excluded entries are not touched by a reset
  have hex : ∀ k ∈ c.exclude, ∀ o, resetVal P c Fp Fi k o = .ok o := by
    intro k hk o
    have e1 : k ∉ Fi.keys := by rw [← Dict.get?_eq_none_iff]; exact hexi k hk
    cases Fp with
    | none => simp [resetVal, hk, e1, bind, Except.bind, pure, Except.pure]
    | some p =>
      have e2 : ¬ (k ∈ p.keys ∧ k ∉ c.doNotInherit) := by
        rintro ⟨g1, g2⟩
        have hsp := hs.parent
        cases parent with
        | none => exact hsp
        | some q =>
          obtain ⟨F, hF⟩ := hp q rfl
          obtain ⟨G, hG, hGk⟩ := hpk q F rfl hF
          simp at hG; subst hG
          have := hexp q F k rfl hF hk g2
          rw [Dict.get?_eq_none_iff, ← hGk] at this
          exact this g1
      simp only [resetVal, hk, if_true, bind, Except.bind, if_neg e2, e1, if_false, pure, Except.pure]
  cases hf : freset P c [] Fp Fi with
  | error e =>
    rw [hf] at hc
    have hc : _ = Except.error e := hc
    rw [hc] at hcreate; simp at hcreate
  | ok F1 =>
    rw [hf] at hc
    obtain ⟨h1', e1, l1, s1, f1⟩ := hc
    rw [e1] at hcreate
    simp at hcreate
    obtain ⟨rfl, rfl⟩ := hcreate
    have g1 := freset_get P c [] Fp Fi hpn hin F1 hf
    have hr := runOps_later P c h.length ops hops s1 l1
    cases hf2 : ops.foldlM (frunOp P c Fp Fi) F1 with
    | error e =>
      rw [hf2] at hr
      have hr : _ = Except.error e := hr
      rw [hr] at hrun; simp at hrun
    | ok F2 =>
      rw [hf2] at hr
      obtain ⟨h2', e2, l2, s2, f2⟩ := hr
      rw [e2] at hrun
      simp at hrun; subst hrun
      -- a reset of anything succeeds
      have total : ∀ F, ∃ F', freset P c F Fp Fi = .ok F' := by
        intro F
        rw [freset_ok_iff P c F Fp Fi hpn hin]
        intro k
        by_cases hk : k ∈ c.exclude
        · exact ⟨_, hex k hk _⟩
        · rw [resetVal_not_excluded P c Fp Fi k hk _ (Dict.get? [] k)]
          exact ⟨_, g1 k⟩
      have step : ∀ hh F, Sources h.length hh parent Fp initial Fi → Later h.length hh h.length F →
          ∃ hh' F', reset P c hh h.length parent initial = .ok hh' ∧ freset P c F Fp Fi = .ok F' ∧
            Later h.length hh' h.length F' ∧ Sources h.length hh' parent Fp initial Fi := by
        intro hh F hs' hl'
        obtain ⟨F', hF'⟩ := total F
        have := reset_later P c h.length hs' hl'
        rw [hF'] at this
        obtain ⟨hh', a1, a2, a3, a4⟩ := this
        exact ⟨hh', F', a1, hF', a2, hs'.mono a3 a4⟩
      obtain ⟨h3, F3, r3, v3, l3, s3⟩ := step _ _ s2 l2
      obtain ⟨h4, F4, r4, v4, l4, s4⟩ := step _ _ s3 l3
      have content : ∀ {hh F}, Later h.length hh h.length F → Content hh h.length F := by
        rintro hh F ⟨M, d, ho, _⟩; exact ho.content
      have g3 := freset_get P c F2 Fp Fi hpn hin F3 v3
      have g4 := freset_get P c F3 Fp Fi hpn hin F4 v4
      have same : ∀ k, k ∉ c.exclude → F3.get? k = F1.get? k := by
        intro k hk
        have a := g3 k
        rw [resetVal_not_excluded P c Fp Fi k hk _ (Dict.get? [] k), g1 k] at a
        simpa using a.symm
      have kept : ∀ k ∈ c.exclude, F3.get? k = F2.get? k := by
        intro k hk
        have a := g3 k
        rw [hex k hk] at a
        simpa using a.symm
      refine ⟨F1, F2, F3, h3, content l1, content l2, r3, content l3, same, kept, h4, F4, r4, content l4, ?_⟩
      intro k
      by_cases hk : k ∈ c.exclude
      · have a := g4 k
        rw [hex k hk] at a
        simpa using a.symm
      · have a := g4 k
        rw [resetVal_not_excluded P c Fp Fi k hk _ (Dict.get? [] k), g1 k] at a
        rw [same k hk]
        simpa using a.symm

/-- The conditions on excluded entries hold for the sample. -/
example : (∀ k ∈ sampleCls.exclude, sampleG.get? k = none) ∧
    (∀ k ∈ sampleCls.exclude, sampleF.get? k = none) := by decide

/-- Finding: an entry that is excluded from resets and is a list among the initial values gets the
initial items once more at each reset. -/
theorem C08_excluded_entry_grows :
    let h : Heap := [.dict [("paths".toList, .ref 1)], .list [.atom (.str "a".toList)]]
    ((do
      let (h1, ctx) ← create samplePy sampleCls h none 0
      let h2 ← reset samplePy sampleCls h1 ctx none 0
      pure ((getKey h1 ctx "paths".toList).bind (flatVal h1), (getKey h2 ctx "paths".toList).bind (flatVal h2))
      ).toOption) =
      some (some (.list [.atom (.str "a".toList)]),
        some (.list [.atom (.str "a".toList), .atom (.str "a".toList)])) := by decide

/-- Finding: a reset does not restore values nested two deep. The initial values are `d: {x: []}`; the header
`d: {x: a}` is loaded and the context is reset: the entry is then `{x: [a]}`, since the loading changed the
initial values. -/
theorem C08_nested_values_are_not_restored :
    let h : Heap := [.dict [("d".toList, .ref 1)], .dict [("x".toList, .ref 2)], .list []]
    ((do
      let (h1, ctx) ← create samplePy sampleCls h none 0
      let h2 ← update samplePy sampleCls.replace true
        (h1 ++ [Obj.dict [("x".toList, .atom (.str "a".toList))],
          Obj.dict [("d".toList, .ref h1.length)]]) ctx (h1.length + 1)
      let h3 ← reset samplePy sampleCls h2 ctx none 0
      let nested (h : Heap) := match getKey h ctx "d".toList with
        | some (.ref o) => (getKey h o "x".toList).bind (flatVal h)
        | _ => none
      pure (nested h1, nested h3)).toOption) =
      some (some (.list []), some (.list [.atom (.str "a".toList)])) := by decide

end Verif.Context
