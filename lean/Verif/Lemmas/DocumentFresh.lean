import Verif.Lemmas.DocumentReload

/-!
# Loading documents of a project that changes
-/

namespace Verif.Documents

open Verif Verif.Documents.Spec

variable {P : Type} [DecidableEq P]

/-! ### `documents_dict` -/

theorem mem_set {κ α : Type} [DecidableEq κ] {d : Dict κ α} {k : κ} {v : α} {kv : κ × α} (h : kv ∈ d.set k v) : kv = (k, v) ∨ kv ∈ d := by
  induction d with
  | nil => simpa [Dict.set] using h
  | cons a d ih =>
    obtain ⟨k', v'⟩ := a
    unfold Dict.set at h
    by_cases hk : k' = k
    · rw [if_pos hk] at h
      rcases List.mem_cons.1 h with rfl | h
      · exact .inl (by rw [hk])
      · exact .inr (List.mem_cons_of_mem _ h)
    · rw [if_neg hk] at h
      rcases List.mem_cons.1 h with rfl | h
      · exact .inr List.mem_cons_self
      · rcases ih h with h | h
        · exact .inl h
        · exact .inr (List.mem_cons_of_mem _ h)

theorem mem_update {κ α : Type} [DecidableEq κ] {items : List (κ × α)} : ∀ {d : Dict κ α} {kv : κ × α}, kv ∈ d.update items → kv ∈ d ∨ kv ∈ items := by
  unfold Dict.update
  induction items with
  | nil => exact fun h => .inl h
  | cons a items ih =>
    intro d kv h
    rw [List.foldl_cons] at h
    rcases ih h with h | h
    · rcases mem_set h with h | h
      · exact .inr (by rw [h]; exact List.mem_cons_self)
      · exact .inl h
    · exact .inr (List.mem_cons_of_mem _ h)

theorem Spec.Below.trans {docs : List (Doc P)} {x y z : Nat} (h : Below docs x y) (h' : Below docs y z) : Below docs x z := by
  induction h' with
  | self => exact h
  | sub _ hd hm ih => exact .sub ih hd hm

/-- Entries of the dict of a document. -/
def Entry (docs : List (Doc P)) (x : Nat) (kv : P × Nat) : Prop := Below docs x kv.2 ∧ ∃ d, docs[kv.2]? = some d ∧ d.path = kv.1

theorem docsDict_entries (docs : List (Doc P)) : ∀ (fuel x : Nat) (D : Dict P Nat), docsDict docs fuel x = some D →
    (∀ kv ∈ D, Entry docs x kv) ∧ ∃ d, docs[x]? = some d ∧ d.path ∈ D.keys := by
  intro fuel
  induction fuel with
  | zero => intro x D h; cases h
  | succ fuel ih =>
    intro x D h
    unfold docsDict at h
    cases hd : docs[x]? with
    | none => rw [hd] at h; cases h
    | some d =>
      rw [hd] at h
      simp only at h
      have key : ∀ (l acc : Dict P Nat), (∀ kv ∈ l, kv ∈ d.subs) → (∀ kv ∈ acc, Entry docs x kv) → d.path ∈ acc.keys →
          dictLoop (docsDict docs fuel) acc l = some D → (∀ kv ∈ D, Entry docs x kv) ∧ d.path ∈ D.keys := by
        intro l
        induction l with
        | nil => intro acc _ ha hp h; cases h; exact ⟨ha, hp⟩
        | cons a l ihl =>
          intro acc hl ha hp h
          obtain ⟨k, y⟩ := a
          unfold dictLoop at h
          cases hy : docsDict docs fuel y with
          | none => rw [hy] at h; cases h
          | some Dy =>
            rw [hy] at h
            refine ihl _ (fun kv hm => hl kv (List.mem_cons_of_mem _ hm)) (fun kv hm => ?_) ?_ h
            · rcases mem_update hm with hm | hm
              · exact ha kv hm
              · obtain ⟨h1, h2⟩ := (ih y Dy hy).1 kv hm
                exact ⟨(Below.sub .self hd (hl (k, y) List.mem_cons_self)).trans h1, h2⟩
            · rw [keys_update, mem_merge]; exact .inl hp
      obtain ⟨h1, h2⟩ := key d.subs [(d.path, x)] (fun _ h => h)
        (fun kv hm => by obtain rfl := List.mem_singleton.1 hm; exact ⟨.self, d, hd, rfl⟩) (by simp [Dict.keys]) h
      exact ⟨h1, d, rfl, h2⟩

/-! ### What is known of the files -/

/-- A document of a state: times are not after `now`; what is loaded is up to date or has an earlier time than the file; only the
root document has the path of the root, and it is no subdocument; subdocuments are documents. -/
structure KDoc (w : World P) (now : Nat) (root : P) (r n i : Nat) (d : Doc P) : Prop where
  time : ∀ m, d.mtime = some m → m ≤ now
  text : ∀ f m, d.loaded = true → d.mtime = some m → w d.path = some f → m < f.mtime ∨ UpToDate w d
  only : d.path = root → i = r
  subs : ∀ kv ∈ d.subs, kv.2 ≠ r ∧ kv.2 < n

structure Known (w : World P) (now : Nat) (root : P) (h : Heap P) : Prop where
  first : ∃ d, h.docs[h.root]? = some d ∧ d.path = root
  docs : ∀ i d, h.docs[i]? = some d → KDoc w now root h.root h.docs.length i d

theorem Known.lt {w : World P} {now : Nat} {root : P} {h : Heap P} (hk : Known w now root h) : h.root < h.docs.length := by
  obtain ⟨d, hd, _⟩ := hk.first
  exact (List.getElem?_eq_some_iff.1 hd).1

/-- A document is changed, but for its path. -/
theorem Known.modify {w : World P} {now : Nat} {root : P} {h : Heap P} (hk : Known w now root h) (x : Nat) (f : Doc P → Doc P)
    (hf : ∀ d, h.docs[x]? = some d → KDoc w now root h.root h.docs.length x d → KDoc w now root h.root h.docs.length x (f d)) (l : List Nat)
    (hp : ∀ d, (f d).path = d.path := by intro _; rfl) :
    Known w now root { docs := modify h.docs x f, root := h.root, loads := l } := by
  constructor
  · obtain ⟨d, hd, hdp⟩ := hk.first
    show ∃ d, (Documents.modify h.docs x f)[h.root]? = some d ∧ _
    rw [modify_get]
    by_cases hx : h.root = x
    · rw [if_pos hx, ← hx, hd]; exact ⟨_, rfl, by rw [hp]; exact hdp⟩
    · rw [if_neg hx]; exact ⟨d, hd, hdp⟩
  · intro i d hd
    have hd : (Documents.modify h.docs x f)[i]? = some d := hd
    show KDoc w now root h.root (Documents.modify h.docs x f).length i d
    rw [modify_length]
    rw [modify_get] at hd
    by_cases hx : i = x
    · rw [if_pos hx] at hd
      subst hx
      cases hd' : h.docs[i]? with
      | none => rw [hd'] at hd; cases hd
      | some d' =>
        rw [hd'] at hd
        cases hd
        exact hf d' hd' (hk.docs i d' hd')
    · rw [if_neg hx] at hd
      exact hk.docs i d hd

/-- A document is made. -/
theorem Known.append {w : World P} {now : Nat} {root : P} {h : Heap P} (hk : Known w now root h) (hw : ∀ p f, w p = some f → f.mtime ≤ now) {q : P}
    (hqr : q ≠ root) (x : Nat) : Known w now root { h with docs := h.docs ++ [newDoc w q (some x)] } := by
  have hlt := hk.lt
  constructor
  · obtain ⟨d, hd, hp⟩ := hk.first
    exact ⟨d, by show (_ ++ _)[_]? = _; rw [List.getElem?_append_left hlt]; exact hd, hp⟩
  · intro i d hd
    have hd : (h.docs ++ [newDoc w q (some x)])[i]? = some d := hd
    by_cases hi : i < h.docs.length
    · rw [List.getElem?_append_left hi] at hd
      have := hk.docs i d hd
      refine ⟨this.time, this.text, this.only, fun kv hm => ⟨(this.subs kv hm).1, ?_⟩⟩
      have := (this.subs kv hm).2
      show _ < (h.docs ++ [newDoc w q (some x)]).length
      rw [List.length_append]
      omega
    · rw [List.getElem?_append_right (by omega)] at hd
      have : i - h.docs.length = 0 := by
        have := (List.getElem?_eq_some_iff.1 hd).1
        simp at this
        omega
      rw [this] at hd
      cases hd
      refine ⟨fun m hm => ?_, fun f m hl => (by cases hl), fun e => absurd e hqr, fun kv hm => absurd hm List.not_mem_nil⟩
      have hm : (w q).map (·.mtime) = some m := hm
      obtain ⟨f, hf, rfl⟩ := Option.map_eq_some_iff.1 hm
      exact hw q f hf

/-- Documents keep their paths. -/
def Keeps (docs docs' : List (Doc P)) : Prop := ∀ i p, pathOf docs i = some p → pathOf docs' i = some p

theorem Keeps.refl (docs : List (Doc P)) : Keeps docs docs := fun _ _ h => h

theorem Keeps.trans {a b c : List (Doc P)} (h : Keeps a b) (h' : Keeps b c) : Keeps a c := fun i p hp => h' i p (h i p hp)

theorem Keeps.modify (docs : List (Doc P)) (x : Nat) (f : Doc P → Doc P) (hp : ∀ d, (f d).path = d.path := by intro _; rfl) :
    Keeps docs (modify docs x f) := by
  intro i p h
  unfold pathOf at *
  rw [modify_get]
  by_cases hx : i = x
  · subst hx
    rw [if_pos rfl]
    cases hd : docs[i]? with
    | none => rw [hd] at h; cases h
    | some d => rw [hd] at h; rw [← h]; simp [hp]
  · rw [if_neg hx]; exact h

theorem Keeps.append (docs : List (Doc P)) (d : Doc P) : Keeps docs (docs ++ [d]) := by
  intro i p h
  unfold pathOf at *
  cases hd : docs[i]? with
  | none => rw [hd] at h; cases h
  | some d' => rw [List.getElem?_append_left (List.getElem?_eq_some_iff.1 hd).1]; exact h

theorem updateMtime_keeps (m : Option Nat) : ∀ (fuel : Nat) (docs : List (Doc P)) (x : Nat), Keeps docs (updateMtime fuel m docs x) := by
  intro fuel
  induction fuel with
  | zero => intro docs x; exact .refl _
  | succ fuel ih =>
    intro docs x
    unfold updateMtime
    cases hd : docs[x]? with
    | none => exact .refl _
    | some d =>
      simp only
      have fold : ∀ (s : Dict P Nat) (docs : List (Doc P)), Keeps docs (s.foldl (fun docs kv => updateMtime fuel m docs kv.2) docs) := by
        intro s
        induction s with
        | nil => exact fun _ => .refl _
        | cons a s ihs => intro docs; rw [List.foldl_cons]; exact (ih docs a.2).trans (ihs _)
      refine Keeps.trans ?_ (fold d.subs _)
      clear fold
      cases m with
      | none => exact .refl _
      | some m =>
        cases d.mtime with
        | none => exact .refl _
        | some old =>
          simp only
          by_cases hlt : m > old
          · rw [if_pos hlt]; exact .modify _ _ _
          · rw [if_neg hlt]; exact .refl _

/-- A set of documents that are up to date, with their subdocuments. -/
def Whole (w : World P) (V : Nat → Prop) (docs : List (Doc P)) : Prop :=
  ∀ i, V i → ∃ d, docs[i]? = some d ∧ UpToDate w d ∧ ∀ kv ∈ d.subs, V kv.2

theorem Whole.modify {w : World P} {V : Nat → Prop} {docs : List (Doc P)} (hc : Whole w V docs) {x : Nat} {f : Doc P → Doc P}
    (hf : ∀ d, docs[x]? = some d → V x → UpToDate w d → (∀ kv ∈ d.subs, V kv.2) → UpToDate w (f d) ∧ ∀ kv ∈ (f d).subs, V kv.2) :
    Whole w V (modify docs x f) := by
  intro i hi
  obtain ⟨d, h1, h2, h3⟩ := hc i hi
  rw [modify_get]
  by_cases hx : i = x
  · rw [if_pos hx, ← hx, h1]
    subst hx
    exact ⟨f d, rfl, hf d h1 hi h2 h3⟩
  · rw [if_neg hx]; exact ⟨d, h1, h2, h3⟩

theorem Whole.append {w : World P} {V : Nat → Prop} {docs : List (Doc P)} (hc : Whole w V docs) (d : Doc P) : Whole w V (docs ++ [d]) := by
  intro i hi
  obtain ⟨d', h1, h2⟩ := hc i hi
  exact ⟨d', by rw [List.getElem?_append_left (List.getElem?_eq_some_iff.1 h1).1]; exact h1, h2⟩

theorem Spec.UpToDate.time {w : World P} {d : Doc P} (h : UpToDate w d) (m : Option Nat) : UpToDate w { d with mtime := m } := h
theorem Spec.UpToDate.subs {w : World P} {d : Doc P} (h : UpToDate w d) (s : Dict P Nat) : UpToDate w { d with subs := s } := h

/-- The times of documents that are up to date can be raised. -/
theorem updateMtime_known {w : World P} {now : Nat} {root : P} {V : Nat → Prop} (m : Option Nat) (hm : ∀ v, m = some v → v ≤ now) (r : Nat) (l : List Nat) :
    ∀ (fuel : Nat) (docs : List (Doc P)) (x : Nat), V x → Known w now root ⟨docs, r, l⟩ → Whole w V docs →
      Known w now root ⟨updateMtime fuel m docs x, r, l⟩ ∧ Whole w V (updateMtime fuel m docs x) := by
  intro fuel
  induction fuel with
  | zero => intro docs x _ hk hc; exact ⟨hk, hc⟩
  | succ fuel ih =>
    intro docs x hx hk hc
    obtain ⟨d, hd, hu, hs⟩ := hc x hx
    unfold updateMtime
    rw [hd]
    simp only
    have fold : ∀ (s : Dict P Nat) (docs : List (Doc P)), (∀ kv ∈ s, V kv.2) → Known w now root ⟨docs, r, l⟩ ∧ Whole w V docs →
        Known w now root ⟨s.foldl (fun docs kv => updateMtime fuel m docs kv.2) docs, r, l⟩ ∧
          Whole w V (s.foldl (fun docs kv => updateMtime fuel m docs kv.2) docs) := by
      intro s
      induction s with
      | nil => exact fun _ _ h => h
      | cons a s ihs =>
        intro docs hs h
        rw [List.foldl_cons]
        exact ihs _ (fun kv hm => hs kv (List.mem_cons_of_mem _ hm)) (ih docs a.2 (hs a List.mem_cons_self) h.1 h.2)
    refine fold d.subs _ hs ?_
    clear fold
    cases m with
    | none => exact ⟨hk, hc⟩
    | some m =>
      cases d.mtime with
      | none => exact ⟨hk, hc⟩
      | some old =>
        simp only
        by_cases hlt : m > old
        · rw [if_pos hlt]
          constructor
          · refine hk.modify x (fun d => { d with mtime := some m }) (fun d' hd' hkd => ⟨fun v hv => ?_, fun f v _ _ _ => .inr ?_, hkd.only, hkd.subs⟩) l
            · cases hv; exact hm m rfl
            · obtain rfl : d = d' := by rw [hd] at hd'; exact Option.some.inj hd'
              exact hu
          · exact hc.modify (fun d' _ _ h1 h2 => ⟨h1, h2⟩)
        · rw [if_neg hlt]; exact ⟨hk, hc⟩

/-! ### `load` -/

/-- What `load` gives, for documents `V` that are up to date. -/
def Loaded (w : World P) (now : Nat) (root : P) (V : Nat → Prop) (x : Nat) (h : Heap P) (out : Except Err Bool × Heap P) : Prop :=
  Known w now root out.2 ∧ out.2.root = h.root ∧ Keeps h.docs out.2.docs ∧
    ∀ b, out.1 = .ok b → ∃ V' : Nat → Prop, (∀ i, V i → V' i) ∧ V' x ∧ Whole w V' out.2.docs

theorem subsLoop_loaded {w : World P} {now : Nat} {root : P} (hw : ∀ p f, w p = some f → f.mtime ≤ now)
    (rec : Heap P → Nat → Except Err Bool × Heap P)
    (hrec : ∀ h y V, Known w now root h → Whole w V h.docs → Loaded w now root V y h (rec h y))
    (x : Nat) (self : P) (subsDict rootDict : Dict P Nat) (r : Nat) (hsd : ∀ q y, q ≠ self → subsDict.get? q = some y → y ≠ r)
    (hrd : rootDict.has root = true) : ∀ (qs : List P) (h : Heap P) (V : Nat → Prop), h.root = r → Known w now root h → V x → Whole w V h.docs →
      Loaded w now root V x h (subsLoop w rec x self subsDict rootDict qs h) := by
  intro qs
  induction qs with
  | nil => intro h V hr hk hx hc; exact ⟨hk, rfl, .refl _, fun _ _ => ⟨V, fun _ h => h, hx, hc⟩⟩
  | cons q qs ih =>
    intro h V hr hk hx hc
    unfold subsLoop
    by_cases hq : q = self
    · rw [if_pos hq]; exact ih h V hr hk hx hc
    · rw [if_neg hq]
      -- a document is added to the subdocuments
      have add : ∀ (h' : Heap P) (y : Nat) (V' : Nat → Prop), h'.root = r → Known w now root h' → Whole w V' h'.docs → V' y → y ≠ r →
          Known w now root { h' with docs := modify h'.docs x fun d => { d with subs := d.subs.set q y } } ∧
            Whole w V' (modify h'.docs x fun d => { d with subs := d.subs.set q y }) := by
        intro h' y V' hr' hk' hc' hy hyr
        constructor
        · refine hk'.modify x (fun d => { d with subs := d.subs.set q y }) (fun d _ hd => ⟨hd.time, fun f m h1 h2 h3 => hd.text f m h1 h2 h3, hd.only, fun kv hm => ?_⟩) _
          rcases mem_set hm with rfl | hm
          · rw [hr']; exact ⟨hyr, (let ⟨_, h1, _⟩ := hc' y hy; (List.getElem?_eq_some_iff.1 h1).1)⟩
          · exact hd.subs kv hm
        · refine hc'.modify (fun d _ _ h1 h2 => ⟨h1, fun kv hm => ?_⟩)
          rcases mem_set hm with rfl | hm
          · exact hy
          · exact h2 kv hm
      cases hy : subsDict.get? q with
      | some y =>
        simp only
        have hr1 := hrec h y V hk hc
        generalize rec h y = out at hr1 ⊢
        obtain ⟨res, h'⟩ := out
        obtain ⟨hk', hroot', hkp, hok⟩ := hr1
        cases res with
        | error e => exact ⟨hk', hroot', hkp, fun b hb => by cases hb⟩
        | ok b =>
          simp only
          obtain ⟨V', hV, hyV, hc'⟩ := hok b rfl
          obtain ⟨dy, hdy, _⟩ := hc' y hyV
          simp only at hdy
          rw [hdy]
          simp only
          have hn : Known w now root (if dy.subs.has self = true then h' else { h' with docs := modify h'.docs x fun d => { d with subs := d.subs.set q y } }) ∧
              Whole w V' (if dy.subs.has self = true then h' else { h' with docs := modify h'.docs x fun d => { d with subs := d.subs.set q y } }).docs ∧
              (if dy.subs.has self = true then h' else { h' with docs := modify h'.docs x fun d => { d with subs := d.subs.set q y } }).root = r ∧
              Keeps h.docs (if dy.subs.has self = true then h' else { h' with docs := modify h'.docs x fun d => { d with subs := d.subs.set q y } }).docs := by
            by_cases hhas : dy.subs.has self = true
            · simp only [if_pos hhas]; exact ⟨hk', hc', hroot'.trans hr, hkp⟩
            · simp only [if_neg hhas]
              obtain ⟨h1, h2⟩ := add h' y V' (hroot'.trans hr) hk' hc' hyV (hsd q y hq hy)
              exact ⟨h1, h2, hroot'.trans hr, hkp.trans (.modify _ _ _)⟩
          generalize (if dy.subs.has self = true then h' else { h' with docs := modify h'.docs x fun d => { d with subs := d.subs.set q y } }) = h1 at hn ⊢
          have := ih h1 V' hn.2.2.1 hn.1 (hV x hx) hn.2.1
          generalize subsLoop w rec x self subsDict rootDict qs h1 = out at this ⊢
          obtain ⟨res, h2⟩ := out
          obtain ⟨a1, a2, a4, a3⟩ := this
          cases res with
          | error e => exact ⟨a1, a2.trans (hn.2.2.1.trans hr.symm), hn.2.2.2.trans a4, fun b hb => by cases hb⟩
          | ok b' =>
            obtain ⟨V2, g1, g2, g3⟩ := a3 b' rfl
            exact ⟨a1, a2.trans (hn.2.2.1.trans hr.symm), hn.2.2.2.trans a4, fun _ _ => ⟨V2, fun i hi => g1 i (hV i hi), g2, g3⟩⟩
      | none =>
        simp only
        by_cases hq2 : rootDict.has q = true
        · rw [if_pos hq2]; exact ih h V hr hk hx hc
        · rw [if_neg hq2]
          have hqr : q ≠ root := fun e => hq2 (by rw [e]; exact hrd)
          have hlt := hk.lt
          have hk0 := hk.append hw hqr x
          have hr1 := hrec { h with docs := h.docs ++ [newDoc w q (some x)] } h.docs.length V hk0 (hc.append _)
          generalize rec { h with docs := h.docs ++ [newDoc w q (some x)] } h.docs.length = out at hr1 ⊢
          obtain ⟨res, h'⟩ := out
          obtain ⟨hk', hroot', hkp, hok⟩ := hr1
          have hkp := (Keeps.append h.docs (newDoc w q (some x))).trans hkp
          cases res with
          | error e => exact ⟨hk', hroot', hkp, fun b hb => by cases hb⟩
          | ok b =>
            simp only
            obtain ⟨V', hV, hyV, hc'⟩ := hok b rfl
            obtain ⟨h1, h2⟩ := add h' h.docs.length V' (hroot'.trans hr) hk' hc' hyV (by omega)
            have := ih _ V' (show Heap.root { h' with docs := modify h'.docs x fun d => { d with subs := d.subs.set q h.docs.length } } = r from hroot'.trans hr) h1 (hV x hx) h2
            generalize subsLoop w rec x self subsDict rootDict qs { h' with docs := modify h'.docs x fun d => { d with subs := d.subs.set q h.docs.length } } = out at this ⊢
            obtain ⟨res, h3⟩ := out
            obtain ⟨a1, a2, a4, a3⟩ := this
            have hkp := (hkp.trans (.modify h'.docs x (fun d => { d with subs := d.subs.set q h.docs.length }))).trans a4
            cases res with
            | error e => exact ⟨a1, a2.trans hroot', hkp, fun b hb => by cases hb⟩
            | ok b' =>
              obtain ⟨V2, g1, g2, g3⟩ := a3 b' rfl
              exact ⟨a1, a2.trans hroot', hkp, fun _ _ => ⟨V2, fun i hi => g1 i (hV i hi), g2, g3⟩⟩

/-- The root document is below no other document. -/
theorem Known.below_root {w : World P} {now : Nat} {root : P} {h : Heap P} (hk : Known w now root h) {x : Nat} (hb : Below h.docs x h.root) : x = h.root := by
  generalize hy : h.root = y at hb
  cases hb with
  | self => rfl
  | sub _ hd hm => exact absurd hy.symm ((hk.docs _ _ hd).subs _ hm).1

theorem loadSubs_loaded {w : World P} {now : Nat} {root : P} (hw : ∀ p f, w p = some f → f.mtime ≤ now)
    (rec : Heap P → Nat → Except Err Bool × Heap P)
    (hrec : ∀ h y V, Known w now root h → Whole w V h.docs → Loaded w now root V y h (rec h y))
    (h : Heap P) (x : Nat) (V : Nat → Prop) (hk : Known w now root h) (hc : Whole w V h.docs) (d : Doc P) (hd : h.docs[x]? = some d)
    (hu : UpToDate w d) : Loaded w now root V x h (loadSubs w rec h x) := by
  unfold loadSubs
  rw [hd]
  simp only
  cases hR : documentsDict h.docs h.root with
  | none => exact ⟨hk, rfl, .refl _, fun b hb => by cases hb⟩
  | some rootDict =>
    cases hS : documentsDict h.docs x with
    | none => exact ⟨hk, rfl, .refl _, fun b hb => by cases hb⟩
    | some subsDict =>
      simp only
      obtain ⟨dr, hdr, hdrp⟩ := hk.first
      have hrd : rootDict.has root = true := by
        obtain ⟨_, d', hd', hm⟩ := docsDict_entries _ _ _ _ hR
        rw [hdr] at hd'; cases hd'
        rw [Dict.has_iff, ← hdrp]; exact hm
      have hsd : ∀ q y, q ≠ d.path → subsDict.get? q = some y → y ≠ h.root := by
        rintro q y hq hy rfl
        obtain ⟨hb, d', hd', hp⟩ := (docsDict_entries _ _ _ _ hS).1 _ (Dict.mem_of_get? _ _ _ hy)
        obtain rfl := hk.below_root hb
        simp only at hd'
        rw [hd] at hd'; cases hd'
        exact hq hp.symm
      have hk1 : Known w now root { h with docs := modify h.docs x fun d => { d with subs := [] } } :=
        hk.modify x (fun d => { d with subs := [] }) (fun d' _ h' => ⟨h'.time, fun f m h1 h2 h3 => h'.text f m h1 h2 h3, h'.only, fun kv hm => absurd hm List.not_mem_nil⟩) _
      have hc1 : Whole w (fun i => V i ∨ i = x) (modify h.docs x fun d => { d with subs := [] }) := by
        intro i hi
        rw [modify_get]
        by_cases hx : i = x
        · rw [if_pos hx, hd]; exact ⟨_, rfl, hu, fun kv hm => absurd hm List.not_mem_nil⟩
        · rw [if_neg hx]
          obtain ⟨d', h1, h2, h3⟩ := hc i (hi.resolve_right hx)
          exact ⟨d', h1, h2, fun kv hm => .inl (h3 kv hm)⟩
      have := subsLoop_loaded hw rec hrec x d.path subsDict rootDict h.root hsd hrd d.includes
        { h with docs := modify h.docs x fun d => { d with subs := [] } } (fun i => V i ∨ i = x) rfl hk1 (.inr rfl) hc1
      generalize subsLoop w rec x d.path subsDict rootDict d.includes { h with docs := modify h.docs x fun d => { d with subs := [] } } = out at this ⊢
      obtain ⟨res, h2⟩ := out
      obtain ⟨a1, a2, a4, a3⟩ := this
      have hkp := (Keeps.modify h.docs x (fun d => { d with subs := [] })).trans a4
      cases res with
      | error e => exact ⟨a1, a2, hkp, fun b hb => by cases hb⟩
      | ok b =>
        simp only
        obtain ⟨V', g1, g2, g3⟩ := a3 b rfl
        simp only at a1 a2 g3
        have hm : ∀ v, (h2.docs[x]?).bind (·.mtime) = some v → v ≤ now := by
          intro v hv
          obtain ⟨d', hd', _⟩ := g3 x g2
          rw [hd'] at hv
          exact (a1.docs x d' hd').time v hv
        obtain ⟨b1, b2⟩ := updateMtime_known _ hm h2.root h2.loads (h2.docs.length + 1) h2.docs x g2 a1 g3
        exact ⟨b1, a2, hkp.trans (updateMtime_keeps _ _ _ _), fun _ _ => ⟨V', fun i hi => g1 i (.inl hi), g2, b2⟩⟩

theorem load_loaded {w : World P} {now : Nat} {root : P} (hw : ∀ p f, w p = some f → f.mtime ≤ now) (alive : Nat → Bool) :
    ∀ (fuel : Nat) (reload : Bool) (h : Heap P) (x : Nat) (V : Nat → Prop), Known w now root h → Whole w V h.docs →
      Loaded w now root V x h (load w alive fuel reload h x) := by
  intro fuel
  induction fuel with
  | zero => intro reload h x V hk hc; exact ⟨hk, rfl, .refl _, fun b hb => by cases hb⟩
  | succ fuel ih =>
    intro reload h x V hk hc
    unfold load
    cases hd : h.docs[x]? with
    | none => exact ⟨hk, rfl, .refl _, fun b hb => by cases hb⟩
    | some d =>
      simp only
      cases hf : w d.path with
      | none => exact ⟨hk, rfl, .refl _, fun b hb => by cases hb⟩
      | some f =>
        simp only
        by_cases hreq : (loadRequired alive h.docs d f.mtime || reload) = true
        · rw [if_pos hreq]
          unfold onload
          cases hs : f.sizeOk with
          | false =>
            refine ⟨hk.modify x (fun d => { d with loaded := false }) (fun d' _ h' => ⟨h'.time, fun f m h1 => (by cases h1), h'.only, h'.subs⟩) _, rfl, .modify _ _ _, fun b hb => by cases hb⟩
          | true =>
            cases hi : f.includes with
            | none =>
              refine ⟨hk.modify x (fun d => { d with loaded := false, mtime := some f.mtime, body := true, text := f.text }) (fun d' _ h' => ⟨fun m hm => ?_, fun f m h1 => (by cases h1), h'.only, h'.subs⟩) _, rfl, .modify _ _ _, fun b hb => by cases hb⟩
              cases hm; exact hw _ _ hf
            | some incs =>
              simp only [Bool.not_true, Bool.false_eq_true, if_false]
              have hu : UpToDate w { d with loaded := true, mtime := some f.mtime, body := true, includes := incs, text := f.text } :=
                ⟨rfl, f, hf, hs, rfl, hi⟩
              have hk1 : Known w now root { h with docs := modify h.docs x fun d => { d with loaded := true, mtime := some f.mtime, body := true, includes := incs, text := f.text }, loads := h.loads ++ [x] } := by
                refine hk.modify x (fun d => { d with loaded := true, mtime := some f.mtime, body := true, includes := incs, text := f.text }) (fun d' hd' h' => ⟨fun m hm => ?_, fun f' m _ _ _ => .inr ?_, h'.only, h'.subs⟩) _
                · cases hm; exact hw _ _ hf
                · obtain rfl : d = d' := by rw [hd] at hd'; exact Option.some.inj hd'
                  exact hu
              have hc1 : Whole w V (modify h.docs x fun d => { d with loaded := true, mtime := some f.mtime, body := true, includes := incs, text := f.text }) := by
                refine hc.modify (fun d' hd' _ _ h2 => ⟨?_, h2⟩)
                obtain rfl : d = d' := by rw [hd] at hd'; exact Option.some.inj hd'
                exact hu
              have := loadSubs_loaded hw (load w alive fuel false) (fun h y V => ih false h y V)
                { h with docs := modify h.docs x fun d => { d with loaded := true, mtime := some f.mtime, body := true, includes := incs, text := f.text }, loads := h.loads ++ [x] }
                x V hk1 hc1 { d with loaded := true, mtime := some f.mtime, body := true, includes := incs, text := f.text }
                (by show (modify _ _ _)[x]? = _; rw [modify_get, if_pos rfl, hd]; rfl) hu
              generalize loadSubs w (load w alive fuel false) { h with docs := modify h.docs x fun d => { d with loaded := true, mtime := some f.mtime, body := true, includes := incs, text := f.text }, loads := h.loads ++ [x] } x = out at this ⊢
              obtain ⟨res, h2⟩ := out
              obtain ⟨a1, a2, a4, a3⟩ := this
              have hkp := (Keeps.modify h.docs x (fun d => { d with loaded := true, mtime := some f.mtime, body := true, includes := incs, text := f.text })).trans a4
              cases res with
              | error e => exact ⟨a1, a2, hkp, fun b hb => by cases hb⟩
              | ok b => exact ⟨a1, a2, hkp, fun _ _ => a3 b rfl⟩
        · rw [if_neg hreq]
          refine loadSubs_loaded hw (load w alive fuel false) (fun h y V => ih false h y V) h x V hk hc d hd ?_
          have hreq : loadRequired alive h.docs d f.mtime = false := by
            cases hl : loadRequired alive h.docs d f.mtime with
            | false => rfl
            | true => rw [hl] at hreq; exact absurd rfl hreq
          unfold loadRequired at hreq
          cases hl : d.loaded with
          | false => rw [hl] at hreq; cases hreq
          | true =>
            cases hb : d.body with
            | false => rw [hl, hb] at hreq; cases hreq
            | true =>
              cases hm : d.mtime with
              | none => rw [hl, hb, hm] at hreq; cases hreq
              | some last =>
                rw [hl, hb, hm] at hreq
                simp only [Bool.not_true, Bool.false_eq_true, if_false] at hreq
                by_cases hlt : f.mtime > last
                · rw [if_pos hlt] at hreq; cases hreq
                · exact ((hk.docs x d hd).text f last hl hm hf).resolve_left hlt

/-- What is known after any changes of files and any loads. -/
theorem Spec.Edits.known {root : P} {w : World P} {now : Nat} {h : Heap P} (he : Edits root w now h) :
    Known w now root h ∧ ∀ p f, w p = some f → f.mtime ≤ now := by
  induction he with
  | @new w now hw =>
    refine ⟨⟨⟨_, rfl, rfl⟩, fun i d hd => ?_⟩, hw⟩
    match i, hd with
    | 0, hd =>
      cases hd
      refine ⟨fun m hm => ?_, fun f m hl => (by cases hl), fun _ => rfl, fun kv hm => absurd hm List.not_mem_nil⟩
      have hm : (w root).map (·.mtime) = some m := hm
      obtain ⟨f, hf, rfl⟩ := Option.map_eq_some_iff.1 hm
      exact hw root f hf
  | @edit w w' now now' h _ hch hw' hle ih =>
    obtain ⟨ih, _⟩ := ih
    refine ⟨⟨ih.first, fun i d hd => ?_⟩, hw'⟩
    have hk := ih.docs i d hd
    refine ⟨fun m hm => Nat.le_trans (hk.time m hm) hle, fun f m hl hm hf => ?_, hk.only, hk.subs⟩
    rcases hch _ f hf with h | h
    · rcases hk.text f m hl hm h with h1 | ⟨h1, f', h2, h3⟩
      · exact .inl h1
      · rw [h] at h2; cases h2
        exact .inr ⟨h1, f, hf, h3⟩
    · exact .inl (Nat.lt_of_le_of_lt (hk.time m hm) h)
  | @load w now fuel x alive reload h _ ih =>
    exact ⟨(load_loaded ih.2 alive fuel reload h x (fun _ => False) ih.1 (fun _ h => h.elim)).1, ih.2⟩

end Verif.Documents
