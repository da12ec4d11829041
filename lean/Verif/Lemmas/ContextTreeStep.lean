import Verif.Lemmas.ContextTree

set_option linter.unusedSimpArgs false
set_option linter.unusedVariables false

namespace Verif.Context

open Verif Verif.Context.Spec

/-! ### Reading changes -/

theorem toList_reads (P : Py) (h : Heap) (g : Tree) (c : Value) (fc : List Nat) (hr : Reads h g c fc) :
    match toList P h c with
    | .ok items => ∃ ts fi, Items P g ts ∧ ReadsAll h ts items fi ∧ fi.Sublist fc ∧ ∀ ts', Items P g ts' → ts' = ts
    | .error _ => ∀ ts, ¬ Items P g ts := by
  cases g with
  | atom a =>
    obtain ⟨rfl, rfl⟩ := hr
    cases a with
    | str s =>
      simp only [toList]
      refine ⟨_, [], Items.text s, ?_, List.Sublist.refl _, ?_⟩
      · rw [(map_atom_eq (P.strToList s) Atom.str).1, (map_atom_eq (P.strToList s) Atom.str).2]
        exact readsAll_atoms h _
      · intro ts' ht; cases ht; rfl
    | none => simp only [toList]; intro ts ht; cases ht
    | int i => simp only [toList]; intro ts ht; cases ht
    | float i => simp only [toList]; intro ts ht; cases ht
    | bool i => simp only [toList]; intro ts ht; cases ht
    | tag i j => simp only [toList]; intro ts ht; cases ht
    | other i j => simp only [toList]; intro ts ht; cases ht
  | list ts =>
    obtain ⟨o, l, fp', rfl, e, rfl, hr⟩ := hr
    simp only [toList, e]
    exact ⟨ts, fp', Items.list ts, hr, List.sublist_cons_self _ _, fun ts' ht => by cases ht; rfl⟩
  | set as =>
    obtain ⟨o, rfl, e, rfl⟩ := hr
    simp only [toList, e]
    exact ⟨_, [], Items.set as, readsAll_atoms h as, List.nil_sublist _, fun ts' ht => by cases ht; rfl⟩
  | dict ts =>
    obtain ⟨o, d, fp', rfl, e, rfl, hn, hr⟩ := hr
    simp only [toList, e]
    refine ⟨_, [], Items.dict ts, ?_, List.nil_sublist _, fun ts' ht => by cases ht; rfl⟩
    have hk := readsDict_keys h ts d fp' hr
    have e1 : (ts.map fun kv => Tree.atom (.str kv.1)) = ((ts.map Prod.fst).map Atom.str).map .atom := by simp [Function.comp_def]
    have e2 : (Dict.keys d).map (fun k => Value.atom (.str k)) = ((ts.map Prod.fst).map Atom.str).map .atom := by
      rw [← hk]; simp [Dict.keys, Function.comp_def]
    rw [e1, e2]
    exact readsAll_atoms h _

theorem readsDict_texts (h : Heap) (d : Dict Str Str) :
    ReadsDict h (d.map fun kv => (kv.1, .atom (.str kv.2))) (d.map fun kv => (kv.1, .atom (.str kv.2))) [] := by
  induction d with
  | nil => exact ⟨rfl, rfl⟩
  | cons kv d ih => exact ⟨.atom (.str kv.2), _, [], [], rfl, rfl, ⟨rfl, rfl⟩, ih⟩

theorem toDict_reads (P : Py) (hP : ∀ s, ((P.strToDict s).map Prod.fst).Nodup) (h : Heap) (g : Tree) (c : Value) (fc : List Nat)
    (hr : Reads h g c fc) :
    match toDict P h c with
    | .ok d => ∃ e fe, Entries P g e ∧ ReadsDict h e d fe ∧ fe.Sublist fc ∧ (d.map Prod.fst).Nodup ∧ ∀ e', Entries P g e' → e' = e
    | .error _ => ∀ e, ¬ Entries P g e := by
  cases g with
  | atom a =>
    obtain ⟨rfl, rfl⟩ := hr
    cases a with
    | str s =>
      simp only [toDict]
      refine ⟨_, [], Entries.text s, readsDict_texts h _, List.Sublist.refl _, ?_, ?_⟩
      · have := hP s
        simpa [Function.comp_def] using this
      · intro ts' ht; cases ht; rfl
    | none => simp only [toDict]; intro ts ht; cases ht
    | int i => simp only [toDict]; intro ts ht; cases ht
    | float i => simp only [toDict]; intro ts ht; cases ht
    | bool i => simp only [toDict]; intro ts ht; cases ht
    | tag i j => simp only [toDict]; intro ts ht; cases ht
    | other i j => simp only [toDict]; intro ts ht; cases ht
  | list ts =>
    obtain ⟨o, l, fp', rfl, e, rfl, hr⟩ := hr
    simp only [toDict, e]
    intro ts ht; cases ht
  | set as =>
    obtain ⟨o, rfl, e, rfl⟩ := hr
    simp only [toDict, e]
    intro ts ht; cases ht
  | dict ts =>
    obtain ⟨o, d, fp', rfl, e, rfl, hn, hr⟩ := hr
    simp only [toDict, e]
    exact ⟨ts, fp', Entries.dict ts, hr, List.sublist_cons_self _ _, hn, fun ts' ht => by cases ht; rfl⟩

theorem mergeAtom_reads (P : Py) (h : Heap) (a : Atom) (g : Tree) (c : Value) (fc : List Nat) (hr : Reads h g c fc) :
    match mergeAtom P a c with
    | .ok a' => Converted P a g a'
    | .error _ => ∀ a', ¬ Converted P a g a' := by
  have hc : (∃ x, g = .atom x ∧ c = .atom x) ∨ ((∀ x, g ≠ .atom x) ∧ ∃ o, c = .ref o) := by
    cases g with
    | atom x => obtain ⟨rfl, _⟩ := hr; exact .inl ⟨x, rfl, rfl⟩
    | list ts => obtain ⟨o, _, _, rfl, _⟩ := hr; exact .inr ⟨by simp, o, rfl⟩
    | set ts => obtain ⟨o, rfl, _⟩ := hr; exact .inr ⟨by simp, o, rfl⟩
    | dict ts => obtain ⟨o, _, _, rfl, _⟩ := hr; exact .inr ⟨by simp, o, rfl⟩
  rcases hc with ⟨x, rfl, rfl⟩ | ⟨hg, o, rfl⟩
  · cases a with
    | none => exact .none _
    | str s =>
      cases x <;> simp only [mergeAtom]
      case str s' => exact .text s s'
      all_goals exact .textKept s _ (by simp)
    | int i =>
      simp only [mergeAtom]
      cases hx : P.toInt x with
      | ok j => exact .int i j x hx
      | valueError => exact .intKept i x hx
      | typeError => intro a' h'; cases h' <;> simp_all
    | float i =>
      simp only [mergeAtom]
      cases hx : P.toFloat x with
      | ok j => exact .float i j x hx
      | valueError => exact .floatKept i x hx
      | typeError => intro a' h'; cases h' <;> simp_all
    | bool b =>
      cases x <;> simp only [mergeAtom]
      case str s =>
        cases hb : P.readBool s with
        | none => exact .boolKept b s hb
        | some b' => exact .bool b b' s hb
      all_goals (intro a' h'; cases h')
    | tag cls c =>
      cases x <;> simp only [mergeAtom]
      case str s => exact .tagText cls c s
      case tag cls' c' => exact .tag cls c cls' c'
      all_goals exact .tagKept cls c _ (by simp) (by simp)
    | other ty id =>
      cases x with
      | other ty' id' =>
        simp only [mergeAtom]
        by_cases ht : ty = ty'
        · subst ht; rw [if_pos rfl]; exact .other ty id id'
        · rw [if_neg ht]; exact .otherKept ty id _ (by intro id'' e; simp at e; exact ht e.1.symm)
      | none => exact .otherKept ty id _ (by simp)
      | str s => exact .otherKept ty id _ (by simp)
      | int s => exact .otherKept ty id _ (by simp)
      | float s => exact .otherKept ty id _ (by simp)
      | bool s => exact .otherKept ty id _ (by simp)
      | tag s t => exact .otherKept ty id _ (by simp)
  · cases a with
    | none => exact .none _
    | str s => exact .textKept s _ (fun s' => hg _)
    | int i => intro a' h'; cases h' <;> exact hg _ rfl
    | float i => intro a' h'; cases h' <;> exact hg _ rfl
    | bool b => intro a' h'; cases h' <;> exact hg _ rfl
    | tag cls c => exact .tagKept cls c _ (fun s => hg _) (fun x y => hg _)
    | other ty id => exact .otherKept ty id _ (fun id' => hg _)

/-! ### Sets -/

theorem readsAll_hashable (h : Heap) (ts : List Tree) (l : List Value) (fp : List Nat) (hr : ReadsAll h ts l fp) :
    (l.all hashable = true → ∃ as : List Atom, ts = as.map Tree.atom ∧ l = as.map Value.atom) ∧
    (l.all hashable = false → ∀ as : List Atom, ts ≠ as.map Tree.atom) := by
  induction ts generalizing l fp with
  | nil => obtain ⟨rfl, _⟩ := hr; exact ⟨fun _ => ⟨[], rfl, rfl⟩, by simp⟩
  | cons t ts ih =>
    obtain ⟨v, l', fp1, fp2, rfl, rfl, h1, h2⟩ := hr
    obtain ⟨ih1, ih2⟩ := ih l' fp2 h2
    have ht : (∃ a, t = .atom a ∧ v = .atom a) ∨ ((∀ a, t ≠ .atom a) ∧ hashable v = false) := by
      cases t with
      | atom a => obtain ⟨rfl, _⟩ := h1; exact .inl ⟨a, rfl, rfl⟩
      | list ts => obtain ⟨o, _, _, rfl, _⟩ := h1; exact .inr ⟨by simp, rfl⟩
      | set ts => obtain ⟨o, rfl, _⟩ := h1; exact .inr ⟨by simp, rfl⟩
      | dict ts => obtain ⟨o, _, _, rfl, _⟩ := h1; exact .inr ⟨by simp, rfl⟩
    rcases ht with ⟨a, rfl, rfl⟩ | ⟨ht, hv⟩
    · constructor
      · intro hall
        obtain ⟨as, rfl, rfl⟩ := ih1 (by simpa [hashable] using hall)
        exact ⟨a :: as, rfl, rfl⟩
      · intro hall as e
        cases as with
        | nil => simp at e
        | cons b as =>
          simp only [List.map_cons, List.cons.injEq] at e
          exact ih2 (by simpa [hashable] using hall) as e.2
    · constructor
      · intro hall; simp [hv] at hall
      · intro _ as e
        cases as with
        | nil => simp at e
        | cons b as =>
          simp only [List.map_cons, List.cons.injEq] at e
          exact ht b e.1

theorem setUnion_atoms (l as : List Atom) : ∃ m : List Atom, setUnion (l.map .atom) (as.map .atom) = m.map .atom ∧
    ∀ x, x ∈ m ↔ x ∈ l ∨ x ∈ as := by
  unfold setUnion
  induction as generalizing l with
  | nil => exact ⟨l, rfl, by simp⟩
  | cons a as ih =>
    simp only [List.map_cons, List.foldl_cons]
    by_cases ha : a ∈ l
    · have : (Value.atom a) ∈ l.map Value.atom := List.mem_map_of_mem ha
      rw [if_pos this]
      obtain ⟨m, h1, h2⟩ := ih l
      refine ⟨m, h1, ?_⟩
      intro x; rw [h2]; simp
      constructor
      · rintro (h | h) <;> simp [h]
      · rintro (h | rfl | h)
        · exact .inl h
        · exact .inl ha
        · exact .inr h
    · have : ¬ (Value.atom a) ∈ l.map Value.atom := by simpa using ha
      rw [if_neg this]
      obtain ⟨m, h1, h2⟩ := ih (l ++ [a])
      refine ⟨m, ?_, ?_⟩
      · rw [← h1]; simp
      · intro x; rw [h2]; simp [or_assoc]

theorem map_atom_inj {as bs : List Atom} (h : (as.map Tree.atom) = bs.map Tree.atom) : as = bs := by
  induction as generalizing bs with
  | nil => cases bs <;> simp at h ⊢
  | cons a as ih =>
    cases bs with
    | nil => simp at h
    | cons b bs => simp only [List.map_cons, List.cons.injEq, Tree.atom.injEq] at h; rw [h.1, ih h.2]

/-! ### One value -/

/-- The result of an operation on the value `.ref o` with objects `fp`, with changes made of `fpc`. -/
def Outcome (h : Heap) (o : Nat) (fp fpc : List Nat) (Q : Tree → Prop) : Except Err Heap → Prop
  | .ok h' => ∃ t' fp', Reads h' t' (.ref o) fp' ∧ fp'.Nodup ∧ h.length ≤ h'.length ∧
      (∀ a < h.length, a ∉ fp → h'[a]? = h[a]?) ∧ (∀ a ∈ fp', a ∈ fp ∨ a ∈ fpc ∨ h.length ≤ a) ∧ Q t'
  | .error _ => ∀ t', ¬ Q t'

/-- The recursive call does what `upd` says. -/
def Good (rec : Heap → Nat → Dict Str Value → Except Err Heap)
    (upd : List (Str × Tree) → List (Str × Tree) → List (Str × Tree) → Prop) : Prop :=
  ∀ h o d F G fp fpc, Reads h (.dict F) (.ref o) fp → fp.Nodup → ReadsDict h G d fpc → (d.map Prod.fst).Nodup → fpc.Nodup →
    (∀ a ∈ fp, a ∉ fpc) → Outcome h o fp fpc (fun t => ∃ F', t = .dict F' ∧ upd F G F') (rec h o d)

/-- The code for lists, sets and dicts. -/
def refStep (P : Py) (rec : Heap → Nat → Dict Str Value → Except Err Heap) (h : Heap) (o : Nat) (change : Value) : Except Err Heap :=
  match h[o]? with
  | some (.list l) => do
    let items ← toList P h change
    .ok (h.set o (.list (items ++ l)))
  | some (.set l) => do
    let items ← toList P h change
    if items.all hashable then .ok (h.set o (.set (setUnion l items)))
    else .error .typeError
  | some (.dict _) => do
    let d ← toDict P h change
    rec h o d
  | none => .ok h

theorem set_frame (h : Heap) (o : Nat) (x : Obj) (a : Nat) (ha : a ≠ o) : (h.set o x)[a]? = h[a]? := by
  rw [List.getElem?_set_ne (Ne.symm ha)]

theorem refStep_outcome (P : Py) (hP : ∀ s, ((P.strToDict s).map Prod.fst).Nodup)
    (rec : Heap → Nat → Dict Str Value → Except Err Heap) (upd : List (Str × Tree) → List (Str × Tree) → List (Str × Tree) → Prop)
    (hrec : Good rec upd) (h : Heap) (o : Nat) (t : Tree) (fk : List Nat) (hr : Reads h t (.ref o) fk) (hn : fk.Nodup)
    (c : Value) (g : Tree) (fc : List Nat) (hc : Reads h g c fc) (hcn : fc.Nodup) (hd : ∀ a ∈ fk, a ∉ fc) :
    Outcome h o fk fc (Changed P upd t g) (refStep P rec h o c) := by
  cases t with
  | atom a => obtain ⟨e, _⟩ := hr; cases e
  | list ts =>
    obtain ⟨o', l, fp', e0, e, rfl, hl⟩ := hr
    cases e0
    have ht := toList_reads P h g c fc hc
    simp only [refStep, e, bind, Except.bind]
    cases hi : toList P h c with
    | error x =>
      rw [hi] at ht
      intro t' hch
      cases hch with
      | list _ items _ hit => exact ht _ hit
    | ok items =>
      rw [hi] at ht
      obtain ⟨us, fi, h1, h2, h3, h4⟩ := ht
      have hob : o < h.length := (List.getElem?_eq_some_iff.1 e).1
      have hno : o ∉ fp' := (List.nodup_cons.1 hn).1
      have hfi : ∀ a ∈ fi, a ∈ fc := fun a ha => h3.subset ha
      have hnofi : o ∉ fi := fun hm => hd o (by simp) (hfi o hm)
      refine ⟨.list (us ++ ts), o :: (fi ++ fp'), ⟨o, items ++ l, fi ++ fp', rfl, by simp [hob], rfl, ?_⟩, ?_, by simp, ?_, ?_, .list ts us g h1⟩
      · apply readsAll_append
        · exact readsAll_frame h _ us items fi h2 fun a ha => set_frame h o _ a (by rintro rfl; exact hnofi ha)
        · exact readsAll_frame h _ ts l fp' hl fun a ha => set_frame h o _ a (by rintro rfl; exact hno ha)
      · rw [List.nodup_cons, List.nodup_append]
        refine ⟨by simp [hno, hnofi], h3.nodup hcn, (List.nodup_cons.1 hn).2, ?_⟩
        rintro a ha b hb rfl
        exact hd a (by simp [hb]) (hfi a ha)
      · intro a _ ha; exact set_frame h o _ a (by rintro rfl; exact ha (by simp))
      · intro a ha
        simp only [List.mem_cons, List.mem_append] at ha ⊢
        rcases ha with ha | ha | ha
        · exact .inl (.inl ha)
        · exact .inr (.inl (hfi a ha))
        · exact .inl (.inr ha)
  | set as =>
    obtain ⟨o', e0, e, rfl⟩ := hr
    cases e0
    have ht := toList_reads P h g c fc hc
    simp only [refStep, e, bind, Except.bind]
    cases hi : toList P h c with
    | error x =>
      rw [hi] at ht
      intro t' hch
      cases hch with
      | set _ items m _ hit _ => exact ht _ hit
    | ok items =>
      rw [hi] at ht
      obtain ⟨us, fi, h1, h2, h3, h4⟩ := ht
      have hob : o < h.length := (List.getElem?_eq_some_iff.1 e).1
      obtain ⟨g1, g2⟩ := readsAll_hashable h us items fi h2
      simp only
      by_cases hall : items.all hashable = true
      · rw [if_pos hall]
        obtain ⟨bs, rfl, rfl⟩ := g1 hall
        obtain ⟨m, hm1, hm2⟩ := setUnion_atoms as bs
        refine ⟨.set m, [o], ⟨o, rfl, by simp [hob, hm1], rfl⟩, by simp, by simp, ?_, ?_, .set as bs m g h1 hm2⟩
        · intro a _ ha; exact set_frame h o _ a (by rintro rfl; exact ha (by simp))
        · intro a ha; exact .inl ha
      · rw [if_neg hall]
        intro t' hch
        cases hch with
        | set _ items' m _ hit _ => exact g2 (by simpa using hall) items' (h4 _ hit).symm
  | dict ts =>
    obtain ⟨o', d, fp', e0, e, hfk, hdn, hl⟩ := hr
    cases e0
    have ht := toDict_reads P hP h g c fc hc
    simp only [refStep, e, bind, Except.bind]
    cases hi : toDict P h c with
    | error x =>
      rw [hi] at ht
      intro t' hch
      cases hch with
      | dict _ e _ _ hit _ => exact ht _ hit
    | ok ch =>
      rw [hi] at ht
      obtain ⟨ents, fe, h1, h2, h3, h4, h5⟩ := ht
      have hrr : Reads h (.dict ts) (.ref o) fk := ⟨o, d, fp', rfl, e, hfk, hdn, hl⟩
      have := hrec h o ch ts ents fk fe hrr hn h2 h4 (h3.nodup hcn) (fun a ha hm => hd a ha (h3.subset hm))
      simp only
      cases hrc : rec h o ch with
      | error x =>
        rw [hrc] at this
        intro t' hch
        cases hch with
        | dict _ e' d' _ hit hu => rw [h5 _ hit] at hu; exact this (.dict d') ⟨d', rfl, hu⟩
      | ok h' =>
        rw [hrc] at this
        obtain ⟨t', fp2, q1, q2, q3, q4, q5, F', rfl, q6⟩ := this
        refine ⟨.dict F', fp2, q1, q2, q3, q4, ?_, .dict ts ents F' g h1 q6⟩
        intro a ha
        rcases q5 a ha with q | q | q
        · exact .inl q
        · exact .inr (.inl (h3.subset q))
        · exact .inr (.inr q)

theorem clear_reads (h : Heap) (v : Value) (t : Tree) (fk : List Nat) (hr : Reads h t v fk) (hn : fk.Nodup) :
    ∃ fk', Reads (clear h v) (emptied t) v fk' ∧ fk'.Nodup ∧ (∀ a ∈ fk', a ∈ fk) ∧ (clear h v).length = h.length ∧
      ∀ a, a ∉ fk → (clear h v)[a]? = h[a]? := by
  cases t with
  | atom a => obtain ⟨rfl, rfl⟩ := hr; exact ⟨[], ⟨rfl, rfl⟩, by simp, by simp, rfl, fun _ _ => rfl⟩
  | list ts =>
    obtain ⟨o, l, fp', rfl, e, rfl, hl⟩ := hr
    have hob : o < h.length := (List.getElem?_eq_some_iff.1 e).1
    simp only [clear, e]
    exact ⟨[o], ⟨o, [], [], rfl, by simp [hob], rfl, rfl, rfl⟩, by simp, by simp, by simp,
      fun a ha => set_frame h o _ a (by rintro rfl; exact ha (by simp))⟩
  | set as =>
    obtain ⟨o, rfl, e, rfl⟩ := hr
    have hob : o < h.length := (List.getElem?_eq_some_iff.1 e).1
    simp only [clear, e]
    exact ⟨[o], ⟨o, rfl, by simp [hob], rfl⟩, by simp, by simp, by simp,
      fun a ha => set_frame h o _ a (by rintro rfl; exact ha (by simp))⟩
  | dict ts =>
    obtain ⟨o, l, fp', rfl, e, rfl, hdn, hl⟩ := hr
    have hob : o < h.length := (List.getElem?_eq_some_iff.1 e).1
    simp only [clear, e]
    exact ⟨[o], ⟨o, [], [], rfl, by simp [hob], rfl, by simp, rfl, rfl⟩, by simp, by simp, by simp,
      fun a ha => set_frame h o _ a (by rintro rfl; exact ha (by simp))⟩

theorem copyVal_reads (h : Heap) (v : Value) (t : Tree) (fk : List Nat) (hr : Reads h t v fk) (hn : fk.Nodup) :
    ∃ fk', Reads (copyVal h v).1 t (copyVal h v).2 fk' ∧ fk'.Nodup ∧ (∀ a ∈ fk', a ∈ fk ∨ h.length ≤ a) ∧
      h.length ≤ (copyVal h v).1.length ∧ ∀ a < h.length, (copyVal h v).1[a]? = h[a]? := by
  have hb := reads_bound h t v fk hr
  have fr : ∀ (x : Obj) a, a < h.length → (h ++ [x])[a]? = h[a]? := fun x a ha => by rw [List.getElem?_append_left ha]
  have nw : ∀ (x : Obj), (h ++ [x])[h.length]? = some x := fun x => by simp
  cases t with
  | atom a => obtain ⟨rfl, rfl⟩ := hr; exact ⟨[], ⟨rfl, rfl⟩, by simp, by simp, Nat.le_refl _, fun _ _ => rfl⟩
  | list ts =>
    obtain ⟨o, l, fp', rfl, e, rfl, hl⟩ := hr
    simp only [copyVal, e]
    refine ⟨h.length :: fp', ⟨h.length, l, fp', rfl, nw _, rfl, ?_⟩, ?_, ?_, by simp, fr _⟩
    · exact readsAll_frame h _ ts l fp' hl fun a ha => fr _ a (hb a (by simp [ha]))
    · rw [List.nodup_cons] at hn ⊢
      exact ⟨fun hm => Nat.lt_irrefl _ (hb _ (by simp [hm])), hn.2⟩
    · intro a ha
      rcases List.mem_cons.1 ha with rfl | ha
      · exact .inr (Nat.le_refl _)
      · exact .inl (by simp [ha])
  | set as =>
    obtain ⟨o, rfl, e, rfl⟩ := hr
    simp only [copyVal, e]
    exact ⟨[h.length], ⟨h.length, rfl, nw _, rfl⟩, by simp, by simp, by simp, fr _⟩
  | dict ts =>
    obtain ⟨o, l, fp', rfl, e, rfl, hdn, hl⟩ := hr
    simp only [copyVal, e]
    refine ⟨h.length :: fp', ⟨h.length, l, fp', rfl, nw _, rfl, hdn, ?_⟩, ?_, ?_, by simp, fr _⟩
    · exact readsDict_frame h _ ts l fp' hl fun a ha => fr _ a (hb a (by simp [ha]))
    · rw [List.nodup_cons] at hn ⊢
      exact ⟨fun hm => Nat.lt_irrefl _ (hb _ (by simp [hm])), hn.2⟩
    · intro a ha
      rcases List.mem_cons.1 ha with rfl | ha
      · exact .inr (Nat.le_refl _)
      · exact .inl (by simp [ha])


/-! ### One key -/

theorem getKey_dict (h : Heap) (self : Nat) (d : Dict Str Value) (k : Str) (e : h[self]? = some (.dict d)) :
    getKey h self k = d.get? k := by simp [getKey, e]

theorem setKey_dict (h : Heap) (self : Nat) (d : Dict Str Value) (k : Str) (v : Value) (e : h[self]? = some (.dict d)) :
    setKey h self k v = h.set self (.dict (d.set k v)) := by simp [setKey, e]

theorem updateKey_ref (P : Py) (rec : Heap → Nat → Dict Str Value → Except Err Heap) (replace : List Str) (self : Nat)
    (changes : Dict Str Value) (h : Heap) (k : Str) (c : Value) (o : Nat) (hc : changes.get? k = some c)
    (hk : getKey h self k = some (.ref o)) :
    updateKey P rec replace true self changes h k = refStep P rec (if k ∈ replace then clear h (.ref o) else h) o c := by
  simp only [updateKey, hc, hk, Bool.not_true, Bool.false_eq_true, if_false]
  generalize (if k ∈ replace then clear h (.ref o) else h) = h1
  unfold refStep
  cases h1[o]? with
  | none => rfl
  | some x => cases x <;> rfl

theorem updateKey_outcome (P : Py) (hP : ∀ s, ((P.strToDict s).map Prod.fst).Nodup)
    (rec : Heap → Nat → Dict Str Value → Except Err Heap) (upd : List (Str × Tree) → List (Str × Tree) → List (Str × Tree) → Prop)
    (hrec : Good rec upd) (replace : List Str) (ow : Bool) (h : Heap) (self : Nat) (F : List (Str × Tree)) (fp : List Nat)
    (hr : Reads h (.dict F) (.ref self) fp) (hn : fp.Nodup) (changes : Dict Str Value) (k : Str) (c : Value)
    (hc : changes.get? k = some c) (g : Tree) (fc : List Nat) (hg : Reads h g c fc) (hcn : fc.Nodup) (hd : ∀ a ∈ fp, a ∉ fc) :
    Outcome h self fp fc (fun t => ∃ r, t = .dict (Dict.set F k r) ∧
      Entry P upd (decide (k ∈ replace)) ow (Dict.get? F k) (some g) (some r)) (updateKey P rec replace ow self changes h k) := by
  have hb := reads_bound h _ _ _ hr
  have hbc := reads_bound h _ _ _ hg
  obtain ⟨self', d, fp', e0, e, rfl, hdn, hl⟩ := hr
  cases e0
  have hself : self < h.length := hb self (by simp)
  rw [List.nodup_cons] at hn
  obtain ⟨hsn, hn⟩ := hn
  have hkey := getKey_dict h self d k e
  cases hv : d.get? k with
  | none =>
    obtain ⟨n1, n2⟩ := readsDict_new h F d fp' hl k hv
    obtain ⟨fk, c1, c2, c3, c4, c5⟩ := copyVal_reads h c g fc hg hcn
    have es : (copyVal h c).1[self]? = some (.dict d) := by rw [c5 self hself, e]
    have hu : updateKey P rec replace ow self changes h k = .ok (setKey (copyVal h c).1 self k (copyVal h c).2) := by
      simp only [updateKey, hc, hkey, hv]
    rw [hu, setKey_dict _ _ _ _ _ es]
    have hsk : self ∉ fk := by
      intro hm
      rcases c3 self hm with q | q
      · exact hd self (by simp) q
      · omega
    have hlt : self < (copyVal h c).1.length := by omega
    refine ⟨.dict (Dict.set F k g), self :: (fp' ++ fk), ⟨self, d.set k (copyVal h c).2, fp' ++ fk, rfl, by simp [hlt], rfl, Dict.keys_set_nodup d k _ hdn, ?_⟩, ?_, ?_, ?_, ?_, g, rfl, ?_⟩
    · apply n2
      · exact reads_frame _ _ _ _ _ c1 fun a ha => set_frame _ _ _ a (by rintro rfl; exact hsk ha)
      · intro a ha
        rw [set_frame _ _ _ a (by rintro rfl; exact hsn ha), c5 a (hb a (by simp [ha]))]
    · rw [List.nodup_cons, List.nodup_append]
      refine ⟨by simp [hsn, hsk], hn, c2, ?_⟩
      rintro a ha b hb' rfl
      rcases c3 a hb' with q | q
      · exact hd a (by simp [ha]) q
      · have := hb a (by simp [ha]); omega
    · simpa using c4
    · intro a ha hna
      rw [set_frame _ _ _ a (by rintro rfl; exact hna (by simp)), c5 a ha]
    · intro a ha
      simp only [List.mem_cons, List.mem_append] at ha ⊢
      rcases ha with ha | ha | ha
      · exact .inl (.inl ha)
      · exact .inl (.inr ha)
      · rcases c3 a ha with q | q
        · exact .inr (.inl q)
        · exact .inr (.inr q)
    · rw [n1]; exact .new g
  | some v =>
    obtain ⟨A, B, fk, t, rfl, s2, s3, s4⟩ := readsDict_split h F d fp' hl k v hv
    rw [s2]
    cases ow with
    | false =>
      have hu : updateKey P rec replace false self changes h k = .ok h := by
        simp only [updateKey, hc, hkey, hv]; rfl
      rw [hu]
      refine ⟨.dict F, self :: (A ++ (fk ++ B)), ⟨self, d, _, rfl, e, rfl, hdn, hl⟩, by simp [List.nodup_cons] at hsn ⊢; exact ⟨hsn, hn⟩, Nat.le_refl _, fun _ _ _ => rfl, fun a ha => .inl ha, t, ?_, .kept t g rfl⟩
      rw [set_same F k t s2]
    | true =>
      have hkn : fk.Nodup := (List.nodup_append.1 (List.nodup_append.1 hn).2.1).1
      have hdk : ∀ a ∈ A ++ B, a ∉ fk := by
        rw [List.nodup_append] at hn
        obtain ⟨_, hn2, hn3⟩ := hn
        rw [List.nodup_append] at hn2
        intro a ha hm
        rcases List.mem_append.1 ha with ha | ha
        · exact hn3 a ha a (by simp [hm]) rfl
        · exact hn2.2.2 a hm a ha rfl
      have hAB : ∀ fk' : List Nat, fk'.Nodup → (∀ a ∈ fk', a ∈ fk ∨ a ∈ fc ∨ h.length ≤ a) → (self :: (A ++ (fk' ++ B))).Nodup := by
        intro fk' h1 h2
        have out : ∀ a ∈ fk', a ∈ self :: (A ++ B) → False := by
          intro a ha hm
          rcases List.mem_cons.1 hm with rfl | hm
          · rcases h2 a ha with q | q | q
            · exact hsn (by simp [q])
            · exact hd a (by simp) q
            · omega
          · rcases h2 a ha with q | q | q
            · exact hdk a hm q
            · exact hd a (by simp at hm ⊢; rcases hm with hm | hm <;> simp [hm]) q
            · have := hb a (by simp at hm ⊢; rcases hm with hm | hm <;> simp [hm]); omega
        have n1 := List.nodup_append.1 hn
        have n2 := List.nodup_append.1 n1.2.1
        rw [List.nodup_cons, List.nodup_append, List.nodup_append]
        refine ⟨?_, n1.1, ⟨h1, n2.2.1, ?_⟩, ?_⟩
        · intro hm
          simp only [List.mem_append] at hm hsn
          rcases hm with hm | hm | hm
          · exact hsn (.inl hm)
          · exact out self hm (by simp)
          · exact hsn (.inr (.inr hm))
        · rintro a ha b hb' rfl; exact out a ha (by simp [hb'])
        · rintro a ha b hb' rfl
          rcases List.mem_append.1 hb' with hb' | hb'
          · exact out a hb' (by simp [ha])
          · exact n1.2.2 a ha a (by simp [hb']) rfl
      cases v with
      | atom a =>
        cases t with
        | list ts => obtain ⟨o, _, _, e9, _⟩ := s3; cases e9
        | set ts => obtain ⟨o, e9, _⟩ := s3; cases e9
        | dict ts => obtain ⟨o, _, _, e9, _⟩ := s3; cases e9
        | atom a0 =>
          obtain ⟨e9, rfl⟩ := s3
          cases e9
          have hu : updateKey P rec replace true self changes h k = (mergeAtom P a c).bind fun a' => .ok (setKey h self k (.atom a')) := by
            simp only [updateKey, hc, hkey, hv, clear, ite_self]; rfl
          rw [hu]
          have hm := mergeAtom_reads P h a g c fc hg
          cases hma : mergeAtom P a c with
          | error x =>
            rw [hma] at hm
            rintro t' ⟨r, _, hE⟩
            cases hE with
            | kept _ _ hf => exact absurd hf (by simp)
            | changed _ _ _ _ hch =>
              have hem : (if decide (k ∈ replace) = true then emptied (.atom a) else Tree.atom a) = .atom a := by split <;> rfl
              rw [hem] at hch
              cases hch with
              | atom _ a' _ hcv => exact hm a' hcv
          | ok a' =>
            rw [hma] at hm
            simp only [Except.bind]
            rw [setKey_dict _ _ _ _ _ e]
            have hfr : ∀ b ∈ A ++ B, (h.set self (.dict (d.set k (.atom a'))))[b]? = h[b]? := fun b hb' =>
              set_frame _ _ _ b (by rintro rfl; exact hsn (by simp at hb' ⊢; exact hb'))
            refine ⟨.dict (Dict.set F k (.atom a')), self :: (A ++ ([] ++ B)), ⟨self, d.set k (.atom a'), _, rfl, by simp [hself], rfl, Dict.keys_set_nodup d k _ hdn, ?_⟩, hAB [] (by simp) (by simp), by simp, ?_, ?_, .atom a', rfl, ?_⟩
            · exact s4 _ _ _ _ ⟨rfl, rfl⟩ hfr
            · intro b _ hnb; exact set_frame _ _ _ b (by rintro rfl; exact hnb (by simp))
            · intro b hb'; exact .inl hb'
            · refine .changed _ _ _ rfl ?_
              have hem : (if decide (k ∈ replace) = true then emptied (.atom a) else Tree.atom a) = .atom a := by split <;> rfl
              rw [hem]; exact .atom a a' g hm
      | ref o =>
        rw [updateKey_ref P rec replace self changes h k c o hc (by rw [hkey, hv])]
        obtain ⟨fk1, c1, c2, c3, c4, c5⟩ : ∃ fk', Reads (if k ∈ replace then clear h (.ref o) else h)
            (if decide (k ∈ replace) = true then emptied t else t) (.ref o) fk' ∧ fk'.Nodup ∧ (∀ a ∈ fk', a ∈ fk) ∧
            (if k ∈ replace then clear h (.ref o) else h).length = h.length ∧
            ∀ a, a ∉ fk → (if k ∈ replace then clear h (.ref o) else h)[a]? = h[a]? := by
          by_cases hk : k ∈ replace
          · simp only [hk, if_true, decide_true]; exact clear_reads h _ t fk s3 hkn
          · simp only [hk, if_false, decide_false, Bool.false_eq_true]; exact ⟨fk, s3, hkn, fun _ h => h, by simp, by simp⟩
        revert c1 c4 c5
        generalize (if k ∈ replace then clear h (.ref o) else h) = h1
        intro c1 c4 c5
        have hfc : ∀ a ∈ fc, a ∉ fk := fun a ha hm => hd a (by simp [hm]) ha
        have hst := refStep_outcome P hP rec upd hrec h1 o _ fk1 c1 c2 c g fc
          (reads_frame h h1 g c fc hg fun a ha => c5 a (hfc a ha)) hcn (fun a ha hm => hfc a hm (c3 a ha))
        cases hres : refStep P rec h1 o c with
        | error x =>
          rw [hres] at hst
          rintro t' ⟨r, _, hE⟩
          cases hE with
          | kept _ _ hf => exact absurd hf (by simp)
          | changed _ _ _ _ hch => exact hst r hch
        | ok h2 =>
          rw [hres] at hst
          obtain ⟨r, fk2, r1, r2, r3, r4, r5, r6⟩ := hst
          have r5' : ∀ a ∈ fk2, a ∈ fk ∨ a ∈ fc ∨ h.length ≤ a := by
            intro a ha
            rcases r5 a ha with q | q | q
            · exact .inl (c3 a q)
            · exact .inr (.inl q)
            · exact .inr (.inr (by omega))
          have hfr : ∀ a < h.length, a ∉ fk → h2[a]? = h[a]? := by
            intro a ha hna
            rw [r4 a (by omega) (fun hm => hna (c3 a hm)), c5 a hna]
          have hABb : ∀ a ∈ A ++ B, a < h.length := fun a ha => hb a (by simp at ha ⊢; rcases ha with ha | ha <;> simp [ha])
          refine ⟨.dict (Dict.set F k r), self :: (A ++ (fk2 ++ B)), ⟨self, d, _, rfl, ?_, rfl, hdn, ?_⟩, hAB fk2 r2 r5', by omega, ?_, ?_, r, rfl, .changed _ _ _ rfl r6⟩
          · rw [hfr self hself (fun hm => hsn (by simp [hm])), e]
          · have := s4 h2 (.ref o) r fk2 r1 (fun a ha => hfr a (hABb a ha) (hdk a ha))
            rwa [set_same d k _ hv] at this
          · intro a ha hna; exact hfr a ha (fun hm => hna (by simp [hm]))
          · intro a ha
            simp only [List.mem_cons, List.mem_append] at ha ⊢
            rcases ha with ha | ha | ha | ha
            · exact .inl (.inl ha)
            · exact .inl (.inr (.inl ha))
            · rcases r5' a ha with q | q | q
              · exact .inl (.inr (.inr (.inl q)))
              · exact .inr (.inl q)
              · exact .inr (.inr q)
            · exact .inl (.inr (.inr (.inr ha)))

mutual
theorem reads_unique (h : Heap) : ∀ (t t' : Tree) (v : Value) (fp fp' : List Nat), Reads h t v fp → Reads h t' v fp' → fp' = fp
  | .atom a, t', v, fp, fp' => by
    rintro ⟨rfl, rfl⟩ h2
    cases t' with
    | atom a' => exact h2.2
    | list ts => obtain ⟨o, _, _, e9, _⟩ := h2; cases e9
    | set ts => obtain ⟨o, e9, _⟩ := h2; cases e9
    | dict ts => obtain ⟨o, _, _, e9, _⟩ := h2; cases e9
  | .list ts, t', v, fp, fp' => by
    rintro ⟨o, l, f, rfl, e, rfl, hr⟩ h2
    cases t' with
    | atom a' => cases h2.1
    | list us =>
      obtain ⟨o', l', f', e9, e8, rfl, hr'⟩ := h2
      cases e9
      rw [e8] at e; cases e
      rw [readsAll_unique h ts us l f f' hr hr']
    | set us => obtain ⟨o', e9, e8, _⟩ := h2; cases e9; rw [e8] at e; cases e
    | dict us => obtain ⟨o', _, _, e9, e8, _⟩ := h2; cases e9; rw [e8] at e; cases e
  | .set as, t', v, fp, fp' => by
    rintro ⟨o, rfl, e, rfl⟩ h2
    cases t' with
    | atom a' => cases h2.1
    | list us => obtain ⟨o', _, _, e9, e8, _⟩ := h2; cases e9; rw [e8] at e; cases e
    | set us => obtain ⟨o', e9, e8, e7⟩ := h2; cases e9; exact e7
    | dict us => obtain ⟨o', _, _, e9, e8, _⟩ := h2; cases e9; rw [e8] at e; cases e
  | .dict ts, t', v, fp, fp' => by
    rintro ⟨o, l, f, rfl, e, rfl, hn, hr⟩ h2
    cases t' with
    | atom a' => cases h2.1
    | list us => obtain ⟨o', _, _, e9, e8, _⟩ := h2; cases e9; rw [e8] at e; cases e
    | set us => obtain ⟨o', e9, e8, _⟩ := h2; cases e9; rw [e8] at e; cases e
    | dict us =>
      obtain ⟨o', l', f', e9, e8, rfl, _, hr'⟩ := h2
      cases e9
      rw [e8] at e; cases e
      rw [readsDict_unique h ts us l f f' hr hr']

theorem readsAll_unique (h : Heap) : ∀ (ts us : List Tree) (l : List Value) (fp fp' : List Nat), ReadsAll h ts l fp → ReadsAll h us l fp' → fp' = fp
  | [], us, l, fp, fp' => by
    rintro ⟨rfl, rfl⟩ h2
    cases us with
    | nil => exact h2.2
    | cons u us => obtain ⟨v, l', _, _, e, _⟩ := h2; cases e
  | t :: ts, us, l, fp, fp' => by
    rintro ⟨v, l', f1, f2, rfl, rfl, h1, h2⟩ h3
    cases us with
    | nil => cases h3.1
    | cons u us =>
      obtain ⟨v', l'', g1, g2, e, rfl, h4, h5⟩ := h3
      cases e
      rw [reads_unique h t u v f1 g1 h1 h4, readsAll_unique h ts us l' f2 g2 h2 h5]

theorem readsDict_unique (h : Heap) : ∀ (ts us : List (Str × Tree)) (d : List (Str × Value)) (fp fp' : List Nat), ReadsDict h ts d fp →
    ReadsDict h us d fp' → fp' = fp
  | [], us, l, fp, fp' => by
    rintro ⟨rfl, rfl⟩ h2
    cases us with
    | nil => exact h2.2
    | cons u us => obtain ⟨ku, u⟩ := u; obtain ⟨v, l', _, _, e, _⟩ := h2; cases e
  | (k, t) :: ts, us, l, fp, fp' => by
    rintro ⟨v, l', f1, f2, rfl, rfl, h1, h2⟩ h3
    cases us with
    | nil => cases h3.1
    | cons u us =>
      obtain ⟨ku, u⟩ := u
      obtain ⟨v', l'', g1, g2, e, rfl, h4, h5⟩ := h3
      cases e
      rw [reads_unique h t u v f1 g1 h1 h4, readsDict_unique h ts us l' f2 g2 h2 h5]
end

/-- Only the dict itself and the objects of the entry are changed. -/
theorem updateKey_frame (P : Py) (hP : ∀ s, ((P.strToDict s).map Prod.fst).Nodup)
    (rec : Heap → Nat → Dict Str Value → Except Err Heap) (upd : List (Str × Tree) → List (Str × Tree) → List (Str × Tree) → Prop)
    (hrec : Good rec upd) (replace : List Str) (ow : Bool) (h : Heap) (self : Nat) (F : List (Str × Tree)) (fp : List Nat)
    (hr : Reads h (.dict F) (.ref self) fp) (hn : fp.Nodup) (changes : Dict Str Value) (k : Str) (c : Value)
    (hc : changes.get? k = some c) (g : Tree) (fc : List Nat) (hg : Reads h g c fc) (hcn : fc.Nodup) (hd : ∀ a ∈ fp, a ∉ fc)
    (d : Dict Str Value) (e : h[self]? = some (.dict d)) (h' : Heap) (hok : updateKey P rec replace ow self changes h k = .ok h') :
    ∃ d', h'[self]? = some (.dict d') ∧ (∀ k', k' ≠ k → d'.get? k' = d.get? k') ∧
      ∀ a < h.length, a ≠ self → (∀ v t fk, d.get? k = some v → Reads h t v fk → a ∉ fk) → h'[a]? = h[a]? := by
  have hb := reads_bound h _ _ _ hr
  obtain ⟨self', d0, fp', e0, e1, rfl, hdn, hl⟩ := hr
  cases e0
  rw [e1] at e; cases e
  have hself : self < h.length := hb self (by simp)
  rw [List.nodup_cons] at hn
  obtain ⟨hsn, hn⟩ := hn
  have hkey := getKey_dict h self d k e1
  have hset : ∀ (H : Heap) v, H[self]? = some (.dict d) → (H.set self (.dict (d.set k v)))[self]? = some (.dict (d.set k v)) := by
    intro H v hH
    have : self < H.length := (List.getElem?_eq_some_iff.1 hH).1
    simp [this]
  cases hv : d.get? k with
  | none =>
    obtain ⟨fk, c1, c2, c3, c4, c5⟩ := copyVal_reads h c g fc hg hcn
    have es : (copyVal h c).1[self]? = some (.dict d) := by rw [c5 self hself, e1]
    have hu : updateKey P rec replace ow self changes h k = .ok (setKey (copyVal h c).1 self k (copyVal h c).2) := by
      simp only [updateKey, hc, hkey, hv]
    rw [hu, setKey_dict _ _ _ _ _ es] at hok
    cases hok
    refine ⟨_, hset _ _ es, fun k' hne => by rw [Dict.get?_set, if_neg (Ne.symm hne)], ?_⟩
    intro a ha hna _
    rw [set_frame _ _ _ a hna, c5 a ha]
  | some v =>
    obtain ⟨A, B, fk, t, rfl, s2, s3, s4⟩ := readsDict_split h F d fp' hl k v hv
    cases ow with
    | false =>
      have hu : updateKey P rec replace false self changes h k = .ok h := by
        simp only [updateKey, hc, hkey, hv]; rfl
      rw [hu] at hok; cases hok
      exact ⟨d, e1, fun _ _ => rfl, fun _ _ _ _ => rfl⟩
    | true =>
      have hkn : fk.Nodup := (List.nodup_append.1 (List.nodup_append.1 hn).2.1).1
      cases v with
      | atom a =>
        have hu : updateKey P rec replace true self changes h k = (mergeAtom P a c).bind fun a' => .ok (setKey h self k (.atom a')) := by
          simp only [updateKey, hc, hkey, hv, clear, ite_self]; rfl
        rw [hu] at hok
        cases hma : mergeAtom P a c with
        | error x => rw [hma] at hok; cases hok
        | ok a' =>
          rw [hma] at hok
          simp only [Except.bind] at hok
          rw [setKey_dict _ _ _ _ _ e1] at hok
          cases hok
          refine ⟨_, hset _ _ e1, fun k' hne => by rw [Dict.get?_set, if_neg (Ne.symm hne)], ?_⟩
          intro a ha hna _
          rw [set_frame _ _ _ a hna]
      | ref o =>
        rw [updateKey_ref P rec replace self changes h k c o hc (by rw [hkey, hv])] at hok
        obtain ⟨t1, fk1, c1, c2, c3, c4, c5⟩ : ∃ t' fk', Reads (if k ∈ replace then clear h (.ref o) else h)
            t' (.ref o) fk' ∧ fk'.Nodup ∧ (∀ a ∈ fk', a ∈ fk) ∧
            (if k ∈ replace then clear h (.ref o) else h).length = h.length ∧
            ∀ a, a ∉ fk → (if k ∈ replace then clear h (.ref o) else h)[a]? = h[a]? := by
          by_cases hk : k ∈ replace
          · simp only [hk, if_true]; exact ⟨_, clear_reads h _ t fk s3 hkn⟩
          · simp only [hk, if_false]; exact ⟨t, fk, s3, hkn, fun _ h => h, by simp, by simp⟩
        revert c1 c4 c5 hok
        generalize (if k ∈ replace then clear h (.ref o) else h) = h1
        intro hok c1 c4 c5
        have hfc : ∀ a ∈ fc, a ∉ fk := fun a ha hm => hd a (by simp [hm]) ha
        have hst := refStep_outcome P hP rec upd hrec h1 o _ fk1 c1 c2 c g fc
          (reads_frame h h1 g c fc hg fun a ha => c5 a (hfc a ha)) hcn (fun a ha hm => hfc a hm (c3 a ha))
        rw [hok] at hst
        obtain ⟨r, fk2, r1, r2, r3, r4, r5, r6⟩ := hst
        have hfr : ∀ a < h.length, a ∉ fk → h'[a]? = h[a]? := by
          intro a ha hna
          rw [r4 a (by omega) (fun hm => hna (c3 a hm)), c5 a hna]
        exact ⟨d, by rw [hfr self hself (fun hm => hsn (by simp [hm])), e1], fun _ _ => rfl,
          fun a ha _ hna => hfr a ha (hna _ t fk rfl s3)⟩

/-! ### All the keys -/

theorem loop_frame (P : Py) (hP : ∀ s, ((P.strToDict s).map Prod.fst).Nodup)
    (rec : Heap → Nat → Dict Str Value → Except Err Heap) (upd : List (Str × Tree) → List (Str × Tree) → List (Str × Tree) → Prop)
    (hrec : Good rec upd) (replace : List Str) (ow : Bool) (self : Nat) (changes : Dict Str Value) (G : List (Str × Tree))
    (φ : Str → List Nat) (hφn : ∀ k, (φ k).Nodup)
    (hφd : ∀ k k', k ≠ k' → ∀ a ∈ φ k, a ∉ φ k') (W : List Nat) (hsW : self ∈ W)
    (ks : List Str) (hks : ks.Nodup) (h : Heap) (F : List (Str × Tree)) (fp : List Nat)
    (hr : Reads h (.dict F) (.ref self) fp) (hn : fp.Nodup)
    (hch : ∀ k ∈ ks, ∃ c g, changes.get? k = some c ∧ Dict.get? G k = some g ∧ Reads h g c (φ k))
    (hd : ∀ k ∈ ks, ∀ a ∈ fp, a ∉ φ k) (d : Dict Str Value) (e : h[self]? = some (.dict d))
    (hW : ∀ k ∈ ks, ∀ v t fk, d.get? k = some v → Reads h t v fk → ∀ a ∈ fk, a ∈ W) (h' : Heap)
    (hok : ks.foldlM (updateKey P rec replace ow self changes) h = .ok h') : ∀ a < h.length, a ∉ W → h'[a]? = h[a]? := by
  induction ks generalizing h F fp d with
  | nil => cases hok; exact fun _ _ _ => rfl
  | cons k ks ih =>
    rw [List.nodup_cons] at hks
    obtain ⟨c, g, hc, hg, hgr⟩ := hch k (by simp)
    have hst := updateKey_outcome P hP rec upd hrec replace ow h self F fp hr hn changes k c hc g (φ k) hgr (hφn k) (hd k (by simp))
    have hsf := updateKey_frame P hP rec upd hrec replace ow h self F fp hr hn changes k c hc g (φ k) hgr (hφn k) (hd k (by simp)) d e
    rw [List.foldlM_cons] at hok
    cases hres : updateKey P rec replace ow self changes h k with
    | error x => rw [hres] at hok; cases hok
    | ok h1 =>
      rw [hres] at hst hok
      obtain ⟨d1, q1, q2, q3⟩ := hsf h1 hres
      simp only [bind, Except.bind] at hok
      obtain ⟨t1, fp1, r1, r2, r3, r4, r5, r, rfl, r6⟩ := hst
      have hch1 : ∀ k' ∈ ks, ∃ c g, changes.get? k' = some c ∧ Dict.get? G k' = some g ∧ Reads h1 g c (φ k') := by
        intro k' hk'
        obtain ⟨c', g', q1, q2, q3⟩ := hch k' (by simp [hk'])
        refine ⟨c', g', q1, q2, reads_frame h h1 _ _ _ q3 fun a ha => r4 a (reads_bound h _ _ _ q3 a ha) ?_⟩
        intro hm; exact hd k' (by simp [hk']) a hm ha
      have hd1 : ∀ k' ∈ ks, ∀ a ∈ fp1, a ∉ φ k' := by
        intro k' hk' a ha hm
        obtain ⟨c', g', _, _, q3⟩ := hch k' (by simp [hk'])
        rcases r5 a ha with q | q | q
        · exact hd k' (by simp [hk']) a q hm
        · exact hφd k k' (fun e => hks.1 (e ▸ hk')) a q hm
        · have := reads_bound h _ _ _ q3 a hm; omega
      have hW1 : ∀ k' ∈ ks, ∀ v t fk, d1.get? k' = some v → Reads h1 t v fk → ∀ a ∈ fk, a ∈ W := by
        intro k' hk' v t fk hv ht a ha
        have hne : k' ≠ k := fun e => hks.1 (e ▸ hk')
        rw [q2 k' hne] at hv
        obtain ⟨self', d0, fp', e0, e1, hfp, hdn, hl⟩ := hr
        cases e0
        rw [e] at e1; cases e1
        rw [hfp, List.nodup_cons] at hn
        obtain ⟨ψ, hψ, hψs⟩ := chgs_of_reads h F d fp' hl hn.2
        obtain ⟨t0, _, ht0⟩ := hψ.reads k' v hv
        have hfr : ∀ b ∈ ψ k', h1[b]? = h[b]? := by
          intro b hb
          refine q3 b (reads_bound h _ _ _ ht0 b hb) (fun eq => hn.1 (hψs k' _ (eq ▸ hb))) ?_
          intro v2 t2 fk2 hv2 ht2 hm
          obtain ⟨t3, _, ht3⟩ := hψ.reads k v2 hv2
          rw [reads_unique h _ _ _ _ _ ht3 ht2] at hm
          exact hψ.disj k k' (Ne.symm hne) b hm hb
        have := reads_unique h1 _ _ _ _ _ (reads_frame h h1 _ _ _ ht0 hfr) ht
        rw [this] at ha
        exact hW k' (by simp [hk']) v t0 _ hv ht0 a ha
      intro a ha hna
      rw [ih hks.2 h1 (Dict.set F k r) fp1 r1 r2 hch1 hd1 d1 q1 hW1 hok a (by omega) hna]
      refine q3 a ha (fun eq => hna (eq ▸ hsW)) ?_
      intro v t fk hv ht hm
      exact hna (hW k (by simp) v t fk hv ht a hm)

/-- The result of updating the keys `ks`. -/
def Loop (P : Py) (upd : List (Str × Tree) → List (Str × Tree) → List (Str × Tree) → Prop) (replace : List Str) (ow : Bool)
    (F G : List (Str × Tree)) (ks : List Str) (t : Tree) : Prop :=
  ∃ F', t = .dict F' ∧ Dict.keys F' = Dict.keys F ++ ks.filter (fun k => k ∉ Dict.keys F) ∧
    (∀ k ∈ ks, Entry P upd (decide (k ∈ replace)) ow (Dict.get? F k) (Dict.get? G k) (Dict.get? F' k)) ∧
    ∀ k, k ∉ ks → Dict.get? F' k = Dict.get? F k

theorem keys_step (F : Dict Str Tree) (k : Str) (r : Tree) (ks : List Str) (hk : k ∉ ks) :
    Dict.keys (Dict.set F k r) ++ ks.filter (fun x => x ∉ Dict.keys (Dict.set F k r)) =
      Dict.keys F ++ (k :: ks).filter (fun x => x ∉ Dict.keys F) := by
  rw [Dict.keys_set]
  by_cases h' : k ∈ Dict.keys F
  · simp [h']
  · have hf : ks.filter (fun x => x ∉ Dict.keys F ++ [k]) = ks.filter (fun x => x ∉ Dict.keys F) := by
      apply List.filter_congr
      intro x hx
      have : x ≠ k := fun e => hk (e ▸ hx)
      simp [this]
    simp only [h', if_false]
    rw [hf, List.filter_cons]
    simp [h']

theorem loop_outcome (P : Py) (hP : ∀ s, ((P.strToDict s).map Prod.fst).Nodup)
    (rec : Heap → Nat → Dict Str Value → Except Err Heap) (upd : List (Str × Tree) → List (Str × Tree) → List (Str × Tree) → Prop)
    (hrec : Good rec upd) (replace : List Str) (ow : Bool) (self : Nat) (changes : Dict Str Value) (G : List (Str × Tree))
    (φ : Str → List Nat) (fpc : List Nat) (hsub : ∀ k, ∀ a ∈ φ k, a ∈ fpc) (hφn : ∀ k, (φ k).Nodup)
    (hφd : ∀ k k', k ≠ k' → ∀ a ∈ φ k, a ∉ φ k') (ks : List Str) (hks : ks.Nodup) (h : Heap) (F : List (Str × Tree)) (fp : List Nat)
    (hr : Reads h (.dict F) (.ref self) fp) (hn : fp.Nodup)
    (hch : ∀ k ∈ ks, ∃ c g, changes.get? k = some c ∧ Dict.get? G k = some g ∧ Reads h g c (φ k))
    (hd : ∀ k ∈ ks, ∀ a ∈ fp, a ∉ φ k) :
    Outcome h self fp fpc (Loop P upd replace ow F G ks) (ks.foldlM (updateKey P rec replace ow self changes) h) := by
  have hfr : ∀ h', ks.foldlM (updateKey P rec replace ow self changes) h = .ok h' → ∀ a < h.length, a ∉ fp → h'[a]? = h[a]? := by
    intro h' hok
    obtain ⟨self', d, fp', e0, e, hfp, hdn, hl⟩ := id hr
    cases e0
    refine loop_frame P hP rec upd hrec replace ow self changes G φ hφn hφd fp (by simp [hfp]) ks hks h F fp hr hn hch hd d e ?_ h' hok
    intro k _ v t fk hv ht a ha
    obtain ⟨A, B, fk0, t0, rfl, s2, s3, _⟩ := readsDict_split h F d fp' hl k v hv
    rw [reads_unique h _ _ _ _ _ s3 ht] at ha
    simp [hfp, ha]
  induction ks generalizing h F fp with
  | nil => exact ⟨.dict F, fp, hr, hn, Nat.le_refl _, fun _ _ _ => rfl, fun a ha => .inl ha, F, rfl, by simp, by simp, by simp⟩
  | cons k ks ih =>
    rw [List.nodup_cons] at hks
    obtain ⟨c, g, hc, hg, hgr⟩ := hch k (by simp)
    have hst := updateKey_outcome P hP rec upd hrec replace ow h self F fp hr hn changes k c hc g (φ k) hgr (hφn k) (hd k (by simp))
    rw [List.foldlM_cons]
    cases hres : updateKey P rec replace ow self changes h k with
    | error x =>
      rw [hres] at hst
      simp only [bind, Except.bind]
      rintro t' ⟨F', rfl, _, hE, _⟩
      have hEk := hE k (by simp)
      rw [hg] at hEk
      cases hv : Dict.get? F' k with
      | none =>
        rw [hv] at hEk
        generalize Dict.get? F k = o1 at hEk
        cases hEk
      | some r => rw [hv] at hEk; exact hst _ ⟨r, rfl, hEk⟩
    | ok h1 =>
      rw [hres] at hst
      obtain ⟨t1, fp1, r1, r2, r3, r4, r5, r, rfl, r6⟩ := hst
      have hch1 : ∀ k' ∈ ks, ∃ c g, changes.get? k' = some c ∧ Dict.get? G k' = some g ∧ Reads h1 g c (φ k') := by
        intro k' hk'
        obtain ⟨c', g', q1, q2, q3⟩ := hch k' (by simp [hk'])
        refine ⟨c', g', q1, q2, reads_frame h h1 _ _ _ q3 fun a ha => r4 a (reads_bound h _ _ _ q3 a ha) ?_⟩
        intro hm; exact hd k' (by simp [hk']) a hm ha
      have hd1 : ∀ k' ∈ ks, ∀ a ∈ fp1, a ∉ φ k' := by
        intro k' hk' a ha hm
        obtain ⟨c', g', _, _, q3⟩ := hch k' (by simp [hk'])
        rcases r5 a ha with q | q | q
        · exact hd k' (by simp [hk']) a q hm
        · exact hφd k k' (fun e => hks.1 (e ▸ hk')) a q hm
        · have := reads_bound h _ _ _ q3 a hm; omega
      have hfr1 : ∀ h', ks.foldlM (updateKey P rec replace ow self changes) h1 = .ok h' → ∀ a < h1.length, a ∉ fp1 → h'[a]? = h1[a]? := by
        intro h' hok
        obtain ⟨self', d, fp', e0, e, hfp, hdn, hl⟩ := id r1
        cases e0
        refine loop_frame P hP rec upd hrec replace ow self changes G φ hφn hφd fp1 (by simp [hfp]) ks hks.2 h1 _ fp1 r1 r2 hch1 hd1 d e ?_ h' hok
        intro k _ v t fk hv ht a ha
        obtain ⟨A, B, fk0, t0, rfl, s2, s3, _⟩ := readsDict_split h1 _ d fp' hl k v hv
        rw [reads_unique h1 _ _ _ _ _ s3 ht] at ha
        simp [hfp, ha]
      have := ih hks.2 h1 (Dict.set F k r) fp1 r1 r2 hch1 hd1 hfr1
      simp only [bind, Except.bind]
      have hget : ∀ k', k' ≠ k → Dict.get? (Dict.set F k r) k' = Dict.get? F k' := fun k' hne => by
        rw [Dict.get?_set]; simp [Ne.symm hne]
      cases hrest : ks.foldlM (updateKey P rec replace ow self changes) h1 with
      | error x =>
        rw [hrest] at this
        rintro t' ⟨F', rfl, w1, w2, w3⟩
        have hkin : k ∈ Dict.keys F' := by
          rw [w1]
          by_cases hk : k ∈ Dict.keys F
          · simp [hk]
          · simp [hk]
        have hn' : ∀ k' ∈ ks, k' ≠ k := fun k' h e => hks.1 (e ▸ h)
        apply this (.dict (Dict.set F' k r))
        refine ⟨_, rfl, ?_, ?_, ?_⟩
        · rw [keys_step F k r ks hks.1, Dict.keys_set, if_pos hkin, w1]
        · intro k' hk'
          have hne : k' ≠ k := fun e => hks.1 (e ▸ hk')
          rw [hget k' hne, Dict.get?_set, if_neg (Ne.symm hne)]
          exact w2 k' (by simp [hk'])
        · intro k' hk'
          rw [Dict.get?_set, Dict.get?_set]
          by_cases he : k = k'
          · simp [he]
          · rw [if_neg he, if_neg he]; exact w3 k' (by simp [hk', Ne.symm he])
      | ok h2 =>
        rw [hrest] at this
        obtain ⟨t2, fp2, v1, v2, v3, v4, v5, F', rfl, w1, w2, w3⟩ := this
        refine ⟨.dict F', fp2, v1, v2, by omega, ?_, ?_, F', rfl, ?_, ?_, ?_⟩
        · intro a ha hna
          exact hfr h2 (by rw [List.foldlM_cons, hres]; exact hrest) a ha hna
        · intro a ha
          rcases v5 a ha with q | q | q
          · rcases r5 a q with q | q | q
            · exact .inl q
            · exact .inr (.inl (hsub k a q))
            · exact .inr (.inr q)
          · exact .inr (.inl q)
          · exact .inr (.inr (by omega))
        · rw [w1, keys_step F k r ks hks.1]
        · intro k' hk'
          rcases List.mem_cons.1 hk' with rfl | hk'
          · rw [w3 _ hks.1, Dict.get?_set, if_pos rfl, hg]; exact r6
          · rw [← hget k' (fun e => hks.1 (e ▸ hk'))]; exact w2 k' hk'
        · intro k' hk'
          simp only [List.mem_cons, not_or] at hk'
          rw [w3 k' hk'.2, hget k' hk'.1]

theorem matchUpdate_good (P : Py) (hP : ∀ s, ((P.strToDict s).map Prod.fst).Nodup) (left : Nat) (replace : List Str) (ow : Bool) :
    Good (fun h o d => matchUpdate P left replace ow h o d (Dict.keys d)) (Updated P left replace ow) := by
  induction left generalizing replace ow with
  | zero =>
    intro h o d F G fp fpc _ _ _ _ _ _
    rintro t' ⟨F', _, hF⟩
    exact hF
  | succ left ih =>
    intro h o d F G fp fpc hr hn hG hdn hcn hd
    obtain ⟨φ, hφ, hφs⟩ := chgs_of_reads h G d fpc hG hcn
    have hkeys : Dict.keys d = Dict.keys G := readsDict_keys h G d fpc hG
    have hloop := loop_outcome P hP _ _ (ih [] true) replace ow o d G φ fpc hφs hφ.nodup hφ.disj (Dict.keys d) hdn h F fp hr hn
      (by
        intro k hk
        obtain ⟨v, hv⟩ := Option.isSome_iff_exists.1 ((Dict.get?_isSome_iff d k).2 hk)
        obtain ⟨t, h1, h2⟩ := hφ.reads k v hv
        exact ⟨v, t, hv, h1, h2⟩)
      (by
        intro k _ a ha hm
        exact hd a ha (hφs k a hm))
    have hQ : ∀ t, Loop P (Updated P left [] true) replace ow F G (Dict.keys d) t ↔ ∃ F', t = .dict F' ∧ Updated P (left + 1) replace ow F G F' := by
      intro t
      constructor
      · rintro ⟨F', rfl, w1, w2, w3⟩
        refine ⟨F', rfl, by rw [hkeys] at w1; exact w1, ?_⟩
        intro k
        rw [lookup_eq, lookup_eq, lookup_eq]
        by_cases hk : k ∈ Dict.keys d
        · exact w2 k hk
        · rw [w3 k hk, (Dict.get?_eq_none_iff G k).2 (hkeys ▸ hk)]
          exact .unchanged _
      · rintro ⟨F', rfl, w1, w2⟩
        refine ⟨F', rfl, by rw [hkeys]; exact w1, ?_, ?_⟩
        · intro k _
          have := w2 k
          rwa [lookup_eq, lookup_eq, lookup_eq] at this
        · intro k hk
          have := w2 k
          rw [lookup_eq, lookup_eq, lookup_eq, (Dict.get?_eq_none_iff G k).2 (hkeys ▸ hk)] at this
          generalize ho : Dict.get? F k = o1 at this ⊢
          cases this; rfl
    have hQ' : Loop P (Updated P left [] true) replace ow F G (Dict.keys d) = fun t => ∃ F', t = .dict F' ∧ Updated P (left + 1) replace ow F G F' :=
      funext fun t => propext (hQ t)
    rw [← hQ']
    exact hloop

end Verif.Context
