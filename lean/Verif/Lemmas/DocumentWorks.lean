import Verif.Lemmas.DocumentAnew

/-!
# Loading a project again works
-/

namespace Verif.Documents

open Verif Verif.Documents.Spec

variable {P : Type} [DecidableEq P]

/-- No document is below itself. -/
def Acyclic (docs : List (Doc P)) : Prop := ∀ (i : Nat) (d : Doc P), docs[i]? = some d → ∀ kv ∈ d.subs, kv.2 < docs.length ∧ ¬ Below docs kv.2 i

theorem Acyclic.antisymm {docs : List (Doc P)} (ha : Acyclic docs) {x y : Nat} (h : Below docs x y) (h' : Below docs y x) : x = y := by
  cases h with
  | self => rfl
  | sub hz hd hm => exact absurd (h'.trans hz) (ha _ _ hd _ hm).2

/-- Documents are only below others if they were before, or are new. -/
structure Grows (docs docs' : List (Doc P)) : Prop where
  length : docs.length ≤ docs'.length
  old : ∀ i j, i < docs.length → j < docs.length → Below docs' i j → Below docs i j
  new : ∀ i j, docs.length ≤ i → Below docs' i j → docs.length ≤ j

theorem Grows.refl (docs : List (Doc P)) (ha : Acyclic docs) : Grows docs docs := by
  refine ⟨Nat.le_refl _, fun _ _ _ _ h => h, fun i j hi h => ?_⟩
  have : j = i := by
    induction h with
    | self => rfl
    | sub _ hd hm ih =>
      have := (List.getElem?_eq_some_iff.1 hd).1
      omega
  omega

theorem Grows.trans {a b c : List (Doc P)} (h : Grows a b) (h' : Grows b c) : Grows a c := by
  have := h.length
  refine ⟨Nat.le_trans h.length h'.length, fun i j hi hj hb => h.old i j hi hj (h'.old i j (by omega) (by omega) hb), fun i j hi hb => ?_⟩
  by_cases hib : b.length ≤ i
  · have := h'.new i j hib hb; omega
  · by_cases hjb : b.length ≤ j
    · omega
    · exact h.new i j hi (h'.old i j (by omega) (by omega) hb)

/-- The documents below documents get fewer. -/
theorem Below.fewer {docs docs' : List (Doc P)} (hs : ∀ (i : Nat) (d' : Doc P), docs'[i]? = some d' → ∃ d, docs[i]? = some d ∧ ∀ kv ∈ d'.subs, kv ∈ d.subs) {i j : Nat}
    (hb : Below docs' i j) : Below docs i j := by
  induction hb with
  | self => exact .self
  | @sub y z k d' _ hd hm ih =>
    obtain ⟨d, h1, h2⟩ := hs y d' hd
    exact .sub ih h1 (h2 _ hm)

theorem Acyclic.fewer {docs docs' : List (Doc P)} (ha : Acyclic docs) (hlen : docs'.length = docs.length)
    (hs : ∀ (i : Nat) (d' : Doc P), docs'[i]? = some d' → ∃ d, docs[i]? = some d ∧ ∀ kv ∈ d'.subs, kv ∈ d.subs) : Acyclic docs' ∧ Grows docs docs' := by
  have hg := Grows.refl docs ha
  constructor
  · intro i d' hd' kv hm
    obtain ⟨d, h1, h2⟩ := hs i d' hd'
    have := ha i d h1 kv (h2 kv hm)
    exact ⟨by rw [hlen]; exact this.1, fun hb => this.2 (Below.fewer hs hb)⟩
  · exact ⟨by rw [hlen]; exact Nat.le_refl _, fun i j _ _ hb => Below.fewer hs hb, fun i j hi hb => hg.new i j hi (Below.fewer hs hb)⟩

theorem Acyclic.modify {docs : List (Doc P)} (ha : Acyclic docs) (x : Nat) (f : Doc P → Doc P)
    (hf : ∀ d, ∀ kv ∈ (f d).subs, kv ∈ d.subs) : Acyclic (modify docs x f) ∧ Grows docs (modify docs x f) := by
  refine ha.fewer (modify_length _ _ _) fun i d' hd' => ?_
  rw [modify_get] at hd'
  by_cases hx : i = x
  · rw [if_pos hx] at hd'
    obtain ⟨d, hd, rfl⟩ := Option.map_eq_some_iff.1 hd'
    exact ⟨d, hx ▸ hd, hf d⟩
  · rw [if_neg hx] at hd'
    exact ⟨d', hd', fun _ h => h⟩

theorem Acyclic.time {docs : List (Doc P)} (ha : Acyclic docs) (m : Option Nat) (fuel x : Nat) :
    Acyclic (updateMtime fuel m docs x) ∧ Grows docs (updateMtime fuel m docs x) := by
  refine ha.fewer (updateMtime_length _ _ _ _) fun i d' hd' => ?_
  have hlt := (List.getElem?_eq_some_iff.1 hd').1
  rw [updateMtime_length] at hlt
  obtain ⟨v, hv⟩ := updateMtime_get m fuel docs x i _ (List.getElem?_eq_getElem hlt)
  rw [hd'] at hv
  cases hv
  exact ⟨_, List.getElem?_eq_getElem hlt, fun _ h => h⟩

theorem Acyclic.append {docs : List (Doc P)} (ha : Acyclic docs) (d0 : Doc P) (h0 : d0.subs = []) : Acyclic (docs ++ [d0]) ∧ Grows docs (docs ++ [d0]) := by
  have hget : ∀ (i : Nat) (d : Doc P) (kv : P × Nat), (docs ++ [d0])[i]? = some d → kv ∈ d.subs → docs[i]? = some d := by
    intro i d kv hd hm
    by_cases hi : i < docs.length
    · rw [List.getElem?_append_left hi] at hd; exact hd
    · rw [List.getElem?_append_right (by omega)] at hd
      have : i - docs.length = 0 := by
        have := (List.getElem?_eq_some_iff.1 hd).1
        simp at this
        omega
      rw [this] at hd
      cases hd
      rw [h0] at hm
      cases hm
  have hbel : ∀ i j, Below (docs ++ [d0]) i j → Below docs i j := by
    intro i j hb
    induction hb with
    | self => exact .self
    | sub _ hd hm ih => exact .sub ih (hget _ _ _ hd hm) hm
  constructor
  · intro i d hd kv hm
    have := ha i d (hget i d kv hd hm) kv hm
    exact ⟨by rw [List.length_append]; omega, fun hb => this.2 (hbel _ _ hb)⟩
  · exact ⟨by rw [List.length_append]; omega, fun i j _ _ hb => hbel i j hb, fun i j hi hb => (Grows.refl docs ha).new i j hi (hbel i j hb)⟩

/-- A document is made a subdocument. -/
theorem Acyclic.edge {docs : List (Doc P)} (ha : Acyclic docs) {x y : Nat} (q : P) (hy : y < docs.length) (hyx : ¬ Below docs y x) :
    Acyclic (Documents.modify docs x fun d => { d with subs := d.subs.set q y }) ∧
      ∀ i j, Below (Documents.modify docs x fun d => { d with subs := d.subs.set q y }) i j → Below docs i j ∨ (Below docs i x ∧ Below docs y j) := by
  have hget : ∀ (i : Nat) (d' : Doc P) (kv : P × Nat), (Documents.modify docs x fun d => { d with subs := d.subs.set q y })[i]? = some d' → kv ∈ d'.subs →
      (i = x ∧ kv.2 = y) ∨ ∃ d, docs[i]? = some d ∧ kv ∈ d.subs := by
    intro i d' kv hd hm
    rw [modify_get] at hd
    by_cases hx : i = x
    · rw [if_pos hx] at hd
      obtain ⟨d, hd0, rfl⟩ := Option.map_eq_some_iff.1 hd
      rcases mem_set hm with rfl | hm
      · exact .inl ⟨hx, rfl⟩
      · exact .inr ⟨d, hx ▸ hd0, hm⟩
    · rw [if_neg hx] at hd
      exact .inr ⟨d', hd, hm⟩
  have hbel : ∀ i j, Below (Documents.modify docs x fun d => { d with subs := d.subs.set q y }) i j → Below docs i j ∨ (Below docs i x ∧ Below docs y j) := by
    intro i j hb
    induction hb with
    | self => exact .inl .self
    | @sub a b k d' _ hd hm ih =>
      rcases hget a d' (k, b) hd hm with ⟨rfl, rfl⟩ | ⟨d, h1, h2⟩
      · rcases ih with h | ⟨h, h'⟩
        · exact .inr ⟨h, .self⟩
        · exact .inr ⟨h, .self⟩
      · rcases ih with h | ⟨h, h'⟩
        · exact .inl (.sub h h1 h2)
        · exact .inr ⟨h, .sub h' h1 h2⟩
  refine ⟨fun i d' hd kv hm => ?_, hbel⟩
  rw [modify_length]
  rcases hget i d' kv hd hm with ⟨rfl, e⟩ | ⟨d, h1, h2⟩
  · rw [e]
    refine ⟨hy, fun hb => ?_⟩
    rcases hbel _ _ hb with h | ⟨h, _⟩
    · exact hyx h
    · exact hyx h
  · refine ⟨(ha i d h1 kv h2).1, fun hb => ?_⟩
    rcases hbel _ _ hb with h | ⟨h, h'⟩
    · exact (ha i d h1 kv h2).2 h
    · exact hyx ((Below.sub h' h1 (k := kv.1) (z := kv.2) h2).trans h)

/-- `documents_dict` ends. -/
theorem Acyclic.dict {docs : List (Doc P)} (ha : Acyclic docs) : ∀ (fuel x : Nat) (c : List Nat), x < docs.length → c.Nodup →
    (∀ i ∈ c, i < docs.length ∧ Below docs i x ∧ i ≠ x) → docs.length + 1 ≤ c.length + fuel → ∃ D, docsDict docs fuel x = some D := by
  intro fuel
  induction fuel with
  | zero =>
    intro x c _ hn hc hlen
    have := length_le_of_nodup docs.length c hn fun i hi => (hc i hi).1
    omega
  | succ fuel ih =>
    intro x c hx hn hc hlen
    obtain ⟨d, hd⟩ : ∃ d, docs[x]? = some d := ⟨_, List.getElem?_eq_getElem hx⟩
    unfold docsDict
    rw [hd]
    simp only
    have key : ∀ (l acc : Dict P Nat), (∀ kv ∈ l, kv ∈ d.subs) → ∃ D, dictLoop (docsDict docs fuel) acc l = some D := by
      intro l
      induction l with
      | nil => exact fun acc _ => ⟨acc, rfl⟩
      | cons a l ihl =>
        intro acc hl
        have hm := hl a List.mem_cons_self
        obtain ⟨h1, h2⟩ := ha x d hd a hm
        obtain ⟨D, hD⟩ := ih a.2 (x :: c) h1 (List.nodup_cons.2 ⟨fun h => (hc x h).2.2 rfl, hn⟩) (by
          intro i hi
          rcases List.mem_cons.1 hi with rfl | hi
          · exact ⟨hx, .sub .self hd hm, fun e => h2 (e ▸ .self)⟩
          · refine ⟨(hc i hi).1, .sub (hc i hi).2.1 hd hm, fun e => h2 (e ▸ (hc i hi).2.1)⟩) (by simp only [List.length_cons]; omega)
        obtain ⟨k, y⟩ := a
        unfold dictLoop
        simp only at hD
        rw [hD]
        exact ihl _ fun kv hm => hl kv (List.mem_cons_of_mem _ hm)
    exact key d.subs _ fun _ h => h

theorem Acyclic.documentsDict {docs : List (Doc P)} (ha : Acyclic docs) {x : Nat} (hx : x < docs.length) : ∃ D, documentsDict docs x = some D :=
  ha.dict (docs.length + 1) x [] hx .nil (by simp) (by simp)

/-! ### `load` -/

/-- What is kept by loading. -/
def KeptA (w : World P) (now : Nat) (root : P) (h h' : Heap P) : Prop :=
  Known w now root h' ∧ h'.root = h.root ∧ Keeps h.docs h'.docs ∧ Acyclic h'.docs ∧ Grows h.docs h'.docs

theorem KeptA.trans {w : World P} {now : Nat} {root : P} {a b c : Heap P} (h : KeptA w now root a b) (h' : KeptA w now root b c) : KeptA w now root a c :=
  ⟨h'.1, h'.2.1.trans h.2.1, h.2.2.1.trans h'.2.2.1, h'.2.2.2.1, h.2.2.2.2.trans h'.2.2.2.2⟩

theorem subsLoop_kept {w : World P} {now : Nat} {root : P} (hw : ∀ p f, w p = some f → f.mtime ≤ now)
    (rec : Heap P → Nat → Except Err Bool × Heap P) (R : P → Prop)
    (hrec : ∀ h y, Known w now root h → Acyclic h.docs → KeptA w now root h (rec h y).2 ∧ ∀ m, pathOf h.docs y = some m → R m → ∃ b, (rec h y).1 = .ok b)
    (x : Nat) (q : P) (subsDict rootDict : Dict P Nat) (hrd : rootDict.has root = true) (h0 : Heap P) (ha0 : Acyclic h0.docs) (hx0 : x < h0.docs.length)
    (hsd : ∀ m y, m ≠ q → subsDict.get? m = some y → y ≠ h0.root ∧ pathOf h0.docs y = some m ∧ Below h0.docs x y ∧ y ≠ x) :
    ∀ (qs : List P) (h : Heap P), Known w now root h → KeptA w now root h0 h →
      KeptA w now root h0 (subsLoop w rec x q subsDict rootDict qs h).2 ∧
      ((∀ m ∈ qs, m ≠ q → m ≠ root → R m) → ∃ b, (subsLoop w rec x q subsDict rootDict qs h).1 = .ok b) := by
  intro qs
  induction qs with
  | nil => intro h hk hkept; exact ⟨hkept, fun _ => ⟨_, rfl⟩⟩
  | cons m qs ih =>
    intro h hk hkept
    unfold subsLoop
    by_cases hmq : m = q
    · rw [if_pos hmq]
      obtain ⟨a1, a2⟩ := ih h hk hkept
      exact ⟨a1, fun hR => a2 fun m hm => hR m (List.mem_cons_of_mem _ hm)⟩
    · rw [if_neg hmq]
      -- a document is added
      have add : ∀ (h' : Heap P) (y : Nat), KeptA w now root h0 h' → y ≠ h0.root → y < h'.docs.length → (y < h0.docs.length → Below h0.docs x y ∧ y ≠ x) →
          KeptA w now root h0 { h' with docs := modify h'.docs x fun d => { d with subs := d.subs.set m y } } := by
        intro h' y hk' hyr hy hyx
        obtain ⟨k1, k2, k3, k4, k5⟩ := hk'
        have hnb : ¬ Below h'.docs y x := by
          intro hb
          by_cases hy0 : y < h0.docs.length
          · exact (hyx hy0).2 (ha0.antisymm (k5.old y x hy0 hx0 hb) (hyx hy0).1)
          · have := k5.new y x (by omega) hb; omega
        obtain ⟨e1, e2⟩ := k4.edge m hy hnb
        refine ⟨?_, k2, k3.trans (.modify _ _ _), e1, ?_⟩
        · refine k1.modify x (fun d => { d with subs := d.subs.set m y }) (fun d _ hd => ⟨hd.time, fun f m h1 h2 h3 => hd.text f m h1 h2 h3, hd.only, fun kv hm => ?_⟩) _
          rcases mem_set hm with rfl | hm
          · exact ⟨by rw [k2]; exact hyr, hy⟩
          · exact hd.subs kv hm
        · refine ⟨by show _ ≤ (modify _ _ _).length; rw [modify_length]; exact k5.length, fun i j hi hj hb => ?_, fun i j hi hb => ?_⟩
          · rcases e2 i j hb with h | ⟨h, h'⟩
            · exact k5.old i j hi hj h
            · by_cases hy0 : y < h0.docs.length
              · exact ((k5.old i x hi hx0 h).trans (hyx hy0).1).trans (k5.old y j hy0 hj h')
              · have := k5.new y j (by omega) h'; omega
          · rcases e2 i j hb with h | ⟨h, _⟩
            · exact k5.new i j hi h
            · have := k5.new i x hi h; omega
      cases hy : subsDict.get? m with
      | some y =>
        simp only
        obtain ⟨s1, s2, s3, s4⟩ := hsd m y hmq hy
        have hp := hkept.2.2.1 _ _ s2
        obtain ⟨r1, r2⟩ := hrec h y hk hkept.2.2.2.1
        have hmr : m ≠ root := by
          rintro rfl
          unfold pathOf at hp
          cases hd : h.docs[y]? with
          | none => rw [hd] at hp; cases hp
          | some d =>
            rw [hd] at hp
            exact s1 (((hk.docs y d hd).only (Option.some.inj hp)).trans hkept.2.1)
        have r2 := r2 m hp
        cases hr : rec h y with
        | mk res h1 =>
        rw [hr] at r1 r2
        have hkept1 := hkept.trans r1
        cases res with
        | error e => exact ⟨hkept1, fun hR => by obtain ⟨b, hb⟩ := r2 (hR m List.mem_cons_self hmq hmr); cases hb⟩
        | ok b1 =>
          simp only at hkept1 ⊢
          have hlt : y < h1.docs.length := by
            have := hkept1.2.2.1 _ _ s2
            unfold pathOf at this
            obtain ⟨d, hd, _⟩ := Option.map_eq_some_iff.1 this
            exact (List.getElem?_eq_some_iff.1 hd).1
          have hn : KeptA w now root h0 (if (match h1.docs[y]? with
              | some d => d.subs.has q
              | none => false) = true then h1 else { h1 with docs := modify h1.docs x fun d => { d with subs := d.subs.set m y } }) := by
            generalize (match h1.docs[y]? with
              | some d => d.subs.has q
              | none => false) = c
            cases c with
            | true => exact hkept1
            | false => exact add h1 y hkept1 s1 hlt fun _ => ⟨s3, s4⟩
          generalize (if (match h1.docs[y]? with
              | some d => d.subs.has q
              | none => false) = true then h1 else { h1 with docs := modify h1.docs x fun d => { d with subs := d.subs.set m y } }) = h2 at hn ⊢
          obtain ⟨i1, i2⟩ := ih h2 hn.1 hn
          cases hr2 : subsLoop w rec x q subsDict rootDict qs h2 with
          | mk res h3 =>
          rw [hr2] at i1 i2
          cases res with
          | error e => exact ⟨i1, fun hR => by obtain ⟨b, hb⟩ := i2 fun m hm => hR m (List.mem_cons_of_mem _ hm); cases hb⟩
          | ok b2 => exact ⟨i1, fun _ => ⟨_, rfl⟩⟩
      | none =>
        simp only
        by_cases hrm : rootDict.has m = true
        · rw [if_pos hrm]
          obtain ⟨a1, a2⟩ := ih h hk hkept
          exact ⟨a1, fun hR => a2 fun m hm => hR m (List.mem_cons_of_mem _ hm)⟩
        · rw [if_neg hrm]
          have hmr : m ≠ root := fun e => hrm (by rw [e]; exact hrd)
          have hlt := hk.lt
          have hk0 := hk.append hw hmr x
          obtain ⟨p1, p2⟩ := hkept.2.2.2.1.append (newDoc w m (some x)) rfl
          have hkept0 : KeptA w now root h0 { h with docs := h.docs ++ [newDoc w m (some x)] } :=
            hkept.trans ⟨hk0, rfl, .append _ _, p1, p2⟩
          obtain ⟨r1, r2⟩ := hrec { h with docs := h.docs ++ [newDoc w m (some x)] } h.docs.length hk0 p1
          have hpy : pathOf (h.docs ++ [newDoc w m (some x)]) h.docs.length = some m := by
            unfold pathOf
            rw [List.getElem?_append_right (Nat.le_refl _), Nat.sub_self]
            rfl
          have r2 := r2 m hpy
          cases hr : rec { h with docs := h.docs ++ [newDoc w m (some x)] } h.docs.length with
          | mk res h1 =>
          rw [hr] at r1 r2
          have hkept1 := hkept0.trans r1
          cases res with
          | error e => exact ⟨hkept1, fun hR => by obtain ⟨b, hb⟩ := r2 (hR m List.mem_cons_self hmq hmr); cases hb⟩
          | ok b1 =>
            simp only at hkept1 ⊢
            have hlen := hkept.2.2.2.2.length
            have hlt1 : h.docs.length < h1.docs.length := by
              have := r1.2.2.2.2.length
              simp only [List.length_append, List.length_singleton] at this
              omega
            have hn := add h1 h.docs.length hkept1 (by rw [← hkept.2.1]; omega) hlt1 (fun hh => by omega)
            obtain ⟨i1, i2⟩ := ih _ hn.1 hn
            cases hr2 : subsLoop w rec x q subsDict rootDict qs { h1 with docs := modify h1.docs x fun d => { d with subs := d.subs.set m h.docs.length } } with
            | mk res h3 =>
            rw [hr2] at i1 i2
            cases res with
            | error e => exact ⟨i1, fun hR => by obtain ⟨b, hb⟩ := i2 fun m hm => hR m (List.mem_cons_of_mem _ hm); cases hb⟩
            | ok b2 => exact ⟨i1, fun _ => ⟨_, rfl⟩⟩

theorem loadSubs_kept {w : World P} {now : Nat} {root : P} (hw : ∀ p f, w p = some f → f.mtime ≤ now)
    (rec : Heap P → Nat → Except Err Bool × Heap P) (R : P → Prop)
    (hrec : ∀ h y, Known w now root h → Acyclic h.docs → KeptA w now root h (rec h y).2 ∧ ∀ m, pathOf h.docs y = some m → R m → ∃ b, (rec h y).1 = .ok b)
    (h : Heap P) (x : Nat) (hk : Known w now root h) (ha : Acyclic h.docs) (d : Doc P) (hd : h.docs[x]? = some d) (hud : UpToDate w d) :
    ((loadSubs w rec h x).2.root = h.root ∧ Keeps h.docs (loadSubs w rec h x).2.docs ∧ Acyclic (loadSubs w rec h x).2.docs ∧ Grows h.docs (loadSubs w rec h x).2.docs) ∧
      ((∀ m, Arrow w root d.path m → R m) → ∃ b, (loadSubs w rec h x).1 = .ok b) := by
  have hx := (List.getElem?_eq_some_iff.1 hd).1
  unfold loadSubs
  rw [hd]
  simp only
  obtain ⟨rootDict, hR⟩ := ha.documentsDict hk.lt
  obtain ⟨subsDict, hS⟩ := ha.documentsDict hx
  rw [hR, hS]
  simp only
  obtain ⟨dr, hdr, hdrp⟩ := hk.first
  have hrd : rootDict.has root = true := by
    obtain ⟨_, d', hd', hm⟩ := docsDict_entries _ _ _ _ hR
    rw [hdr] at hd'; cases hd'
    rw [Dict.has_iff, ← hdrp]; exact hm
  have hsd : ∀ m y, m ≠ d.path → subsDict.get? m = some y → y ≠ h.root ∧ pathOf h.docs y = some m ∧ Below h.docs x y ∧ y ≠ x := by
    intro m y hm hy
    obtain ⟨hb, d', hd', hp⟩ := (docsDict_entries _ _ _ _ hS).1 _ (Dict.mem_of_get? _ _ _ hy)
    simp only at hd' hp hb
    have hyx : y ≠ x := by
      rintro rfl
      rw [hd] at hd'; cases hd'
      exact hm hp.symm
    refine ⟨?_, by unfold pathOf; rw [hd', ← hp]; rfl, hb, hyx⟩
    rintro rfl
    exact hyx (hk.below_root hb).symm
  have hk1 : Known w now root { h with docs := modify h.docs x fun d => { d with subs := [] } } :=
    hk.modify x (fun d => { d with subs := [] }) (fun d' _ h' => ⟨h'.time, fun f m h1 h2 h3 => h'.text f m h1 h2 h3, h'.only, fun kv hm => absurd hm List.not_mem_nil⟩) _
  obtain ⟨c1, c2⟩ := ha.modify x (fun d => { d with subs := [] }) (fun d kv hm => absurd hm List.not_mem_nil)
  obtain ⟨l1, l2⟩ := subsLoop_kept hw rec R hrec x d.path subsDict rootDict hrd h ha hx hsd d.includes
    { h with docs := modify h.docs x fun d => { d with subs := [] } } hk1 ⟨hk1, rfl, .modify _ _ _, c1, c2⟩
  cases hr : subsLoop w rec x d.path subsDict rootDict d.includes { h with docs := modify h.docs x fun d => { d with subs := [] } } with
  | mk res h2 =>
  rw [hr] at l1 l2
  cases res with
  | error e =>
    refine ⟨l1.2, fun hR => ?_⟩
    obtain ⟨b, hb⟩ := l2 fun m hm h1 h2 => hR m ⟨by rw [← hud.inc]; exact hm, h1, h2⟩
    cases hb
  | ok b =>
    simp only at l1 ⊢
    refine ⟨?_, fun _ => ⟨_, rfl⟩⟩
    obtain ⟨t1, t2⟩ := l1.2.2.2.1.time ((h2.docs[x]?).bind (·.mtime)) (h2.docs.length + 1) x
    exact ⟨l1.2.1, l1.2.2.1.trans (updateMtime_keeps _ _ _ _), t1, l1.2.2.2.2.trans t2⟩

/-- A file can be loaded with a bound on the recursion. -/
def CanLoad (w : World P) (now : Nat) (root : P) (alive : Nat → Bool) (fuel : Nat) (p : P) : Prop :=
  ∀ reload h x, Known w now root h → Acyclic h.docs → pathOf h.docs x = some p → ∃ b, (load w alive fuel reload h x).1 = .ok b

theorem load_step {w : World P} {now : Nat} {root : P} (hw : ∀ p f, w p = some f → f.mtime ≤ now) (alive : Nat → Bool) (fuel : Nat)
    (hrec : ∀ h y, Known w now root h → Acyclic h.docs → KeptA w now root h (load w alive fuel false h y).2)
    (reload : Bool) (h : Heap P) (x : Nat) (hk : Known w now root h) (ha : Acyclic h.docs) :
    KeptA w now root h (load w alive (fuel + 1) reload h x).2 ∧
      ∀ p, pathOf h.docs x = some p → (contents w p).isSome → (∀ m, Arrow w root p m → CanLoad w now root alive fuel m) →
        ∃ b, (load w alive (fuel + 1) reload h x).1 = .ok b := by
  have hkn := (load_loaded hw alive (fuel + 1) reload h x (fun _ => False) hk (fun _ h => h.elim)).1
  have hrec' : ∀ h y, Known w now root h → Acyclic h.docs → KeptA w now root h (load w alive fuel false h y).2 ∧
      ∀ m, pathOf h.docs y = some m → CanLoad w now root alive fuel m → ∃ b, (load w alive fuel false h y).1 = .ok b :=
    fun h y hk ha => ⟨hrec h y hk ha, fun m hp hc => hc false h y hk ha hp⟩
  suffices hs : ((load w alive (fuel + 1) reload h x).2.root = h.root ∧ Keeps h.docs (load w alive (fuel + 1) reload h x).2.docs ∧
      Acyclic (load w alive (fuel + 1) reload h x).2.docs ∧ Grows h.docs (load w alive (fuel + 1) reload h x).2.docs) ∧
      ∀ p, pathOf h.docs x = some p → (contents w p).isSome → (∀ m, Arrow w root p m → CanLoad w now root alive fuel m) →
        ∃ b, (load w alive (fuel + 1) reload h x).1 = .ok b from ⟨⟨hkn, hs.1⟩, hs.2⟩
  clear hkn
  have same : h.root = h.root ∧ Keeps h.docs h.docs ∧ Acyclic h.docs ∧ Grows h.docs h.docs := ⟨rfl, .refl _, ha, .refl _ ha⟩
  have mod : ∀ f : Doc P → Doc P, (∀ d, (f d).subs = d.subs) → (∀ d, (f d).path = d.path) →
      Keeps h.docs (modify h.docs x f) ∧ Acyclic (modify h.docs x f) ∧ Grows h.docs (modify h.docs x f) := by
    intro f hf hp
    obtain ⟨m1, m2⟩ := ha.modify x f (fun d kv hm => by rw [hf] at hm; exact hm)
    exact ⟨.modify _ _ _ hp, m1, m2⟩
  unfold load
  cases hd : h.docs[x]? with
  | none => exact ⟨same, fun p hp => by unfold pathOf at hp; rw [hd] at hp; cases hp⟩
  | some d =>
    have hpx : ∀ p, pathOf h.docs x = some p → d.path = p := fun p hp => by
      unfold pathOf at hp
      rw [hd] at hp
      exact Option.some.inj hp
    simp only
    cases hf : w d.path with
    | none => exact ⟨same, fun p hp hc => by obtain rfl := hpx p hp; unfold contents at hc; rw [hf] at hc; cases hc⟩
    | some f =>
      simp only
      by_cases hreq : (loadRequired alive h.docs d f.mtime || reload) = true
      · rw [if_pos hreq]
        unfold onload
        cases hs : f.sizeOk with
        | false =>
          refine ⟨⟨rfl, mod (fun d => { d with loaded := false }) (fun _ => rfl) (fun _ => rfl)⟩, fun p hp hc => ?_⟩
          obtain rfl := hpx p hp
          unfold contents at hc
          rw [hf] at hc
          simp only [hs] at hc
          cases hc
        | true =>
          cases hi : f.includes with
          | none =>
            refine ⟨⟨rfl, mod (fun d => { d with loaded := false, mtime := some f.mtime, body := true, text := f.text }) (fun _ => rfl) (fun _ => rfl)⟩, fun p hp hc => ?_⟩
            obtain rfl := hpx p hp
            unfold contents at hc
            rw [hf] at hc
            simp only [hs, hi] at hc
            cases hc
          | some incs =>
            simp only [Bool.not_true, Bool.false_eq_true, if_false]
            have hud : UpToDate w { d with loaded := true, mtime := some f.mtime, body := true, includes := incs, text := f.text } :=
              ⟨rfl, f, hf, hs, rfl, hi⟩
            have hk1 : Known w now root { h with docs := modify h.docs x fun d => { d with loaded := true, mtime := some f.mtime, body := true, includes := incs, text := f.text }, loads := h.loads ++ [x] } := by
              refine hk.modify x (fun d => { d with loaded := true, mtime := some f.mtime, body := true, includes := incs, text := f.text }) (fun d' hd' h' => ⟨fun m hm => ?_, fun f' m _ _ _ => .inr ?_, h'.only, h'.subs⟩) _
              · cases hm; exact hw _ _ hf
              · obtain rfl : d = d' := by rw [hd] at hd'; exact Option.some.inj hd'
                exact hud
            obtain ⟨m1, m2, m3⟩ := mod (fun d => { d with loaded := true, mtime := some f.mtime, body := true, includes := incs, text := f.text }) (fun _ => rfl) (fun _ => rfl)
            obtain ⟨a1, a2⟩ := loadSubs_kept hw (load w alive fuel false) (CanLoad w now root alive fuel) hrec'
              { h with docs := modify h.docs x fun d => { d with loaded := true, mtime := some f.mtime, body := true, includes := incs, text := f.text }, loads := h.loads ++ [x] }
              x hk1 m2 { d with loaded := true, mtime := some f.mtime, body := true, includes := incs, text := f.text }
              (by show (modify _ _ _)[x]? = _; rw [modify_get, if_pos rfl, hd]; rfl) hud
            cases hr : loadSubs w (load w alive fuel false) { h with docs := modify h.docs x fun d => { d with loaded := true, mtime := some f.mtime, body := true, includes := incs, text := f.text }, loads := h.loads ++ [x] } x with
            | mk res h2 =>
            rw [hr] at a1 a2
            obtain ⟨b1, b2, b3, b4⟩ := a1
            cases res with
            | error e =>
              refine ⟨⟨b1, m1.trans b2, b3, m3.trans b4⟩, fun p hp _ hc => ?_⟩
              obtain rfl := hpx p hp
              obtain ⟨b, hb⟩ := a2 hc
              cases hb
            | ok b => exact ⟨⟨b1, m1.trans b2, b3, m3.trans b4⟩, fun _ _ _ _ => ⟨_, rfl⟩⟩
      · rw [if_neg hreq]
        have hreq : loadRequired alive h.docs d f.mtime = false := by
          cases hl : loadRequired alive h.docs d f.mtime with
          | false => rfl
          | true => rw [hl] at hreq; exact absurd rfl hreq
        obtain ⟨a1, a2⟩ := loadSubs_kept hw (load w alive fuel false) (CanLoad w now root alive fuel) hrec' h x hk ha d hd (notRequired hk hd hf hreq)
        exact ⟨a1, fun p hp _ hc => by obtain rfl := hpx p hp; exact a2 hc⟩

theorem load_kept {w : World P} {now : Nat} {root : P} (hw : ∀ p f, w p = some f → f.mtime ≤ now) (alive : Nat → Bool) :
    ∀ (fuel : Nat) (reload : Bool) (h : Heap P) (x : Nat), Known w now root h → Acyclic h.docs → KeptA w now root h (load w alive fuel reload h x).2 := by
  intro fuel
  induction fuel with
  | zero => intro reload h x hk ha; exact ⟨hk, rfl, .refl _, ha, .refl _ ha⟩
  | succ fuel ih => intro reload h x hk ha; exact (load_step hw alive fuel (ih false) reload h x hk ha).1

theorem Good.canLoad {w : World P} {now : Nat} {root : P} (hw : ∀ p f, w p = some f → f.mtime ≤ now) (alive : Nat → Bool) {p : P} (hg : Good w root p) :
    ∃ n, ∀ fuel ≥ n, CanLoad w now root alive fuel p := by
  induction hg with
  | @mk p hc hn ih =>
    obtain ⟨n, hb⟩ := exists_bound (Q := fun m f => Arrow w root p m → CanLoad w now root alive f m) (inc w p) (by
      intro m _
      by_cases hm : Arrow w root p m
      · obtain ⟨n, h⟩ := ih m hm
        exact ⟨n, fun k hk _ => h k hk⟩
      · exact ⟨0, fun _ _ h => absurd h hm⟩)
    refine ⟨n + 1, fun fuel hf => ?_⟩
    obtain ⟨fuel, rfl⟩ : ∃ f, fuel = f + 1 := ⟨fuel - 1, by omega⟩
    intro reload h x hk ha hp
    exact (load_step hw alive fuel (load_kept hw alive fuel false) reload h x hk ha).2 p hp hc fun m hm => hb m hm.1 fuel (by omega) hm

theorem Spec.Edits.acyclic {root : P} {w : World P} {now : Nat} {h : Heap P} (he : Edits root w now h) : Acyclic h.docs := by
  induction he with
  | @new w now hw =>
    intro i d hd kv hm
    match i, hd with
    | 0, hd => cases hd; cases hm
  | edit _ _ _ _ ih => exact ih
  | @load w now fuel x alive reload h he ih =>
    exact (load_kept he.known.2 alive fuel reload h x he.known.1 ih).2.2.2.1

end Verif.Documents
