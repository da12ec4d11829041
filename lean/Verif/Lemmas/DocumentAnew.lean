import Verif.Lemmas.DocumentFresh

/-!
# Loading again and loading anew
-/

namespace Verif.Documents

open Verif Verif.Documents.Spec

variable {P : Type} [DecidableEq P]

/-- The files that are loaded with a file. -/
abbrev Star (w : World P) (root : P) : P → P → Prop := Relation.ReflTransGen (Arrow w root)

/-- The files that a file includes, but for itself and the root. -/
def kids (w : World P) (root p : P) (l : List P) : List P := l.filter (fun m => decide (m ≠ p) && decide (m ≠ root))

theorem mem_kids {w : World P} {root p m : P} : m ∈ kids w root p (inc w p) ↔ Arrow w root p m := by
  unfold kids Arrow
  simp

theorem Star.no_root {w : World P} {root m : P} (h : Star w root m root) : m = root := by
  rcases Relation.ReflTransGen.cases_tail h with h | ⟨p, _, h⟩
  · exact h.symm
  · exact absurd rfl h.2.2

theorem Spec.UpToDate.inc {w : World P} {d : Doc P} (h : UpToDate w d) : d.includes = inc w d.path := by
  obtain ⟨_, f, h1, h2, _, h4⟩ := h
  unfold Spec.inc contents
  rw [h1]
  simp only
  rw [if_pos h2, h4]
  rfl

/-- Documents `V` are up to date, with their subdocuments. -/
def Done (w : World P) (root : P) (V : Nat → Prop) (docs : List (Doc P)) : Prop :=
  ∀ i, V i → ∃ d, docs[i]? = some d ∧ UpToDate w d ∧ d.subs.keys = kids w root d.path (inc w d.path) ∧ ∀ kv ∈ d.subs, V kv.2 ∧ pathOf docs kv.2 = some kv.1

/-- Only times change, but for files that are loaded with `q`. -/
def Frame (w : World P) (root q : P) (docs docs' : List (Doc P)) : Prop :=
  ∀ (i : Nat) (d : Doc P), docs[i]? = some d → ¬ Star w root q d.path → ∃ m, docs'[i]? = some { d with mtime := m }

theorem Frame.refl (w : World P) (root q : P) (docs : List (Doc P)) : Frame w root q docs docs := fun _ d hd _ => ⟨d.mtime, hd⟩

theorem Frame.trans {w : World P} {root q : P} {a b c : List (Doc P)} (h : Frame w root q a b) (h' : Frame w root q b c) : Frame w root q a c := by
  intro i d hd hq
  obtain ⟨m, hm⟩ := h i d hd hq
  obtain ⟨m', hm'⟩ := h' i _ hm hq
  exact ⟨m', hm'⟩

theorem Frame.mono {w : World P} {root q q' : P} {a b : List (Doc P)} (h : Frame w root q' a b) (hs : Star w root q q') : Frame w root q a b :=
  fun i d hd hq => h i d hd fun h' => hq (hs.trans h')

theorem Frame.modify {w : World P} {root q : P} {docs : List (Doc P)} {x : Nat} {f : Doc P → Doc P} (hp : pathOf docs x = some q) :
    Frame w root q docs (modify docs x f) := by
  intro i d hd hq
  rw [modify_get]
  by_cases hx : i = x
  · subst hx
    unfold pathOf at hp
    rw [hd] at hp
    cases hp
    exact absurd .refl hq
  · rw [if_neg hx]; exact ⟨d.mtime, hd⟩

theorem Frame.append {w : World P} {root q : P} (docs : List (Doc P)) (d : Doc P) : Frame w root q docs (docs ++ [d]) := by
  intro i d' hd _
  exact ⟨d'.mtime, by rw [List.getElem?_append_left (List.getElem?_eq_some_iff.1 hd).1]; exact hd⟩

/-- `_update_mtime` changes only times. -/
theorem updateMtime_get (m : Option Nat) : ∀ (fuel : Nat) (docs : List (Doc P)) (x i : Nat) (d : Doc P), docs[i]? = some d →
    ∃ v, (updateMtime fuel m docs x)[i]? = some { d with mtime := v } := by
  intro fuel
  induction fuel with
  | zero => intro docs x i d hd; exact ⟨d.mtime, hd⟩
  | succ fuel ih =>
    intro docs x i d hd
    unfold updateMtime
    cases hx : docs[x]? with
    | none => exact ⟨d.mtime, hd⟩
    | some dx =>
      simp only
      have fold : ∀ (s : Dict P Nat) (docs : List (Doc P)) (d : Doc P), docs[i]? = some d →
          ∃ v, (s.foldl (fun docs kv => updateMtime fuel m docs kv.2) docs)[i]? = some { d with mtime := v } := by
        intro s
        induction s with
        | nil => exact fun docs d hd => ⟨d.mtime, hd⟩
        | cons a s ihs =>
          intro docs d hd
          rw [List.foldl_cons]
          obtain ⟨v, hv⟩ := ih docs a.2 i d hd
          obtain ⟨v', hv'⟩ := ihs _ _ hv
          exact ⟨v', hv'⟩
      have h0 : ∃ v, (match m, dx.mtime with
          | some m, some old => if m > old then modify docs x (fun d => { d with mtime := some m }) else docs
          | _, _ => docs)[i]? = some { d with mtime := v } := by
        clear fold
        cases m with
        | none => exact ⟨d.mtime, hd⟩
        | some m =>
          cases dx.mtime with
          | none => exact ⟨d.mtime, hd⟩
          | some old =>
            simp only
            by_cases hlt : m > old
            · rw [if_pos hlt, modify_get]
              by_cases hi : i = x
              · rw [if_pos hi, ← hi, hd]; exact ⟨_, rfl⟩
              · rw [if_neg hi]; exact ⟨d.mtime, hd⟩
            · rw [if_neg hlt]; exact ⟨d.mtime, hd⟩
      obtain ⟨v, hv⟩ := h0
      obtain ⟨v', hv'⟩ := fold dx.subs _ _ hv
      exact ⟨v', hv'⟩

theorem Done.frame {w : World P} {root q : P} {V : Nat → Prop} {docs docs' : List (Doc P)} (hd : Done w root V docs)
    (ha : ∀ i p, V i → pathOf docs i = some p → ¬ Star w root q p) (hf : Frame w root q docs docs') (hk : Keeps docs docs') : Done w root V docs' := by
  intro i hi
  obtain ⟨d, h1, h2, h3, h4⟩ := hd i hi
  obtain ⟨m, hm⟩ := hf i d h1 (ha i d.path hi (by unfold pathOf; rw [h1]; rfl))
  exact ⟨_, hm, h2, h3, fun kv hm => ⟨(h4 kv hm).1, hk _ _ (h4 kv hm).2⟩⟩

theorem Done.path {w : World P} {root : P} {V : Nat → Prop} {docs docs' : List (Doc P)} (hd : Done w root V docs) (hk : Keeps docs docs') {i : Nat} {p : P}
    (hi : V i) (hp : pathOf docs' i = some p) : pathOf docs i = some p := by
  obtain ⟨d, h1, _⟩ := hd i hi
  have h2 : pathOf docs i = some d.path := by unfold pathOf; rw [h1]; rfl
  rw [hk _ _ h2] at hp
  rw [h2, hp]

theorem Known.valid {w : World P} {now : Nat} {root : P} {h : Heap P} (hk : Known w now root h) {y : Nat} (hb : Below h.docs h.root y) :
    ∃ d, h.docs[y]? = some d := by
  cases hb with
  | self => obtain ⟨d, hd, _⟩ := hk.first; exact ⟨d, hd⟩
  | sub _ hd hm => exact ⟨_, List.getElem?_eq_getElem ((hk.docs _ _ hd).subs _ hm).2⟩

/-- No document below the root is loaded with `q`. -/
def Out (w : World P) (root q : P) (r : Nat) (docs : List (Doc P)) : Prop :=
  ∀ y p, Below docs r y → pathOf docs y = some p → ¬ Star w root q p

theorem Out.below {w : World P} {now : Nat} {root q : P} {h : Heap P} {docs' : List (Doc P)} (ho : Out w root q h.root h.docs) (hk : Known w now root h)
    (hf : Frame w root q h.docs docs') {y : Nat} (hb : Below docs' h.root y) : Below h.docs h.root y := by
  induction hb with
  | self => exact .self
  | @sub y z k d' _ hd' hm ih =>
    obtain ⟨d, hd⟩ := hk.valid ih
    obtain ⟨m, hm'⟩ := hf y d hd (ho y d.path ih (by unfold pathOf; rw [hd]; rfl))
    rw [hd'] at hm'
    cases hm'
    exact .sub ih hd hm

theorem Out.frame {w : World P} {now : Nat} {root q : P} {h : Heap P} {docs' : List (Doc P)} (ho : Out w root q h.root h.docs) (hk : Known w now root h)
    (hf : Frame w root q h.docs docs') (hkp : Keeps h.docs docs') : Out w root q h.root docs' := by
  intro y p hb hp
  have hb' := ho.below hk hf hb
  obtain ⟨d, hd⟩ := hk.valid hb'
  have h2 : pathOf h.docs y = some d.path := by unfold pathOf; rw [hd]; rfl
  rw [hkp _ _ h2] at hp
  cases hp
  exact ho y _ hb' h2

theorem Out.mono {w : World P} {root q q' : P} {r : Nat} {docs : List (Doc P)} (ho : Out w root q r docs) (hs : Star w root q q') : Out w root q' r docs :=
  fun y p hb hp h => ho y p hb hp (hs.trans h)

/-- What a load gives. -/
def Anew (w : World P) (root : P) (V : Nat → Prop) (x : Nat) (q : P) (docs docs' : List (Doc P)) : Prop :=
  Frame w root q docs docs' ∧ ∃ V' : Nat → Prop, (∀ i, V i → V' i) ∧ V' x ∧ Done w root V' docs' ∧
    ∀ i p, V' i → pathOf docs' i = some p → V i ∨ Star w root q p

/-- What `load` does for a document. -/
def Loads (w : World P) (now : Nat) (root : P) (rec : Heap P → Nat → Except Err Bool × Heap P) : Prop :=
  ∀ h y m V b h', Known w now root h → pathOf h.docs y = some m → Reach w root m → Done w root V h.docs →
    (∀ i p, V i → pathOf h.docs i = some p → ¬ Star w root m p) → (y = h.root ∨ Out w root m h.root h.docs) → rec h y = (.ok b, h') →
    (Known w now root h' ∧ h'.root = h.root ∧ Keeps h.docs h'.docs) ∧ Anew w root V y m h.docs h'.docs

/-- The state of the loop of `load_subdocuments`. -/
structure Loop (w : World P) (now : Nat) (root : P) (V0 : Nat → Prop) (x : Nat) (q : P) (r : Nat) (ps : List P) (V : Nat → Prop) (h : Heap P) : Prop where
  known : Known w now root h
  top : h.root = r
  whole : Done w root V h.docs
  self : ∃ d, h.docs[x]? = some d ∧ d.path = q ∧ UpToDate w d ∧ d.subs.keys = kids w root q ps ∧
    ∀ kv ∈ d.subs, V kv.2 ∧ pathOf h.docs kv.2 = some kv.1
  old : ∀ i, V0 i → V i
  new : ∀ i p, V i → pathOf h.docs i = some p → (V0 i ∧ ¬ Star w root q p) ∨ ∃ m ∈ ps, Arrow w root q m ∧ Star w root m p
  out : x = r ∨ Out w root q r h.docs

section

variable {w : World P} {now : Nat} {root : P} {V0 V : Nat → Prop} {x r : Nat} {q : P} {ps : List P} {h : Heap P}

theorem Loop.path (hl : Loop w now root V0 x q r ps V h) : pathOf h.docs x = some q := by
  obtain ⟨d, h1, h2, _⟩ := hl.self
  unfold pathOf; rw [h1, ← h2]; rfl

theorem Loop.not_self (hl : Loop w now root V0 x q r ps V h) (hg : Good w root q) : ¬ V x := by
  intro hx
  rcases hl.new x q hx hl.path with ⟨_, h⟩ | ⟨m, _, ha, hs⟩
  · exact h .refl
  · exact hg.acyclic (Relation.TransGen.head' ha hs)

theorem Loop.apart (hl : Loop w now root V0 x q r ps V h) (hu : Unique w root) (hq : Reach w root q) (hg : Good w root q) {m : P} (hm : m ∉ ps)
    (ha : Arrow w root q m) : ∀ i p, V i → pathOf h.docs i = some p → ¬ Star w root m p := by
  intro i p hi hp hs
  rcases hl.new i p hi hp with ⟨_, h⟩ | ⟨m', hm', ha', hs'⟩
  · exact h (.head ha hs)
  · exact siblings hu hq hg ha ha' (fun e => hm (e ▸ hm')) hs hs'

theorem Loop.outside (hl : Loop w now root V0 x q r ps V h) (hu : Unique w root) (hq : Reach w root q) (hg : Good w root q) {m : P} (hm : m ∉ ps)
    (ha : Arrow w root q m) : Out w root m h.root h.docs := by
  rcases hl.out with hx | ho
  · have hb : ∀ y, Below h.docs r y → y = r ∨ V y := by
      intro y hy
      induction hy with
      | self => exact .inl rfl
      | @sub y z k d _ hd hm ih =>
        refine .inr ?_
        rcases ih with ih | ih
        · obtain ⟨d', h1, _, _, _, h2⟩ := hl.self
          rw [hx, ← ih, hd] at h1
          cases h1
          exact (h2 _ hm).1
        · obtain ⟨d', h1, _, _, h2⟩ := hl.whole y ih
          rw [hd] at h1
          cases h1
          exact (h2 _ hm).1
    intro y p hy hp hs
    rw [hl.top] at hy
    rcases hb y hy with rfl | hv
    · obtain ⟨d, h1, h2⟩ := hl.known.first
      unfold pathOf at hp
      rw [hl.top] at h1
      rw [h1] at hp
      cases hp
      simp only [h2] at hs
      exact ha.2.2 hs.no_root
    · exact hl.apart hu hq hg hm ha y p hv hp hs
  · rw [hl.top]; exact ho.mono (.single ha)

/-- An include that is left out. -/
theorem Loop.skip (hl : Loop w now root V0 x q r ps V h) {m : P} (hm : m = q ∨ m = root) : Loop w now root V0 x q r (ps ++ [m]) V h := by
  obtain ⟨d, h1, h2, h3, h4, h5⟩ := hl.self
  refine ⟨hl.known, hl.top, hl.whole, ⟨d, h1, h2, h3, ?_, h5⟩, hl.old, fun i p hi hp => ?_, hl.out⟩
  · rw [h4]
    unfold kids
    rw [List.filter_append]
    rcases hm with rfl | rfl <;> simp
  · rcases hl.new i p hi hp with h | ⟨m', h, h'⟩
    · exact .inl h
    · exact .inr ⟨m', List.mem_append_left _ h, h'⟩

/-- A document is loaded, and added to the subdocuments. -/
theorem Loop.add (hl : Loop w now root V0 x q r ps V h) (hg : Good w root q) {m : P} (hm : m ∉ ps) (ha : Arrow w root q m)
    {y : Nat} {h' : Heap P} (hyr : y ≠ r) (hy : pathOf h'.docs y = some m) (hk' : Known w now root h') (hr' : h'.root = h.root) (hkp : Keeps h.docs h'.docs)
    (han : Anew w root V y m h.docs h'.docs) : ∃ V', Loop w now root V0 x q r (ps ++ [m]) V' { h' with docs := modify h'.docs x fun d => { d with subs := d.subs.set m y } } ∧
      Frame w root q h.docs (modify h'.docs x fun d => { d with subs := d.subs.set m y }) ∧ ∃ dy, h'.docs[y]? = some dy ∧ dy.subs.has q = false := by
  obtain ⟨hf, V', g1, g2, g3, g4⟩ := han
  obtain ⟨d, h1, h2, h3, h4, h5⟩ := hl.self
  have hmq : ¬ Star w root m q := fun h => hg.acyclic (Relation.TransGen.head' ha h)
  obtain ⟨t, ht⟩ := hf x d h1 (by rw [h2]; exact hmq)
  have hpx : pathOf h'.docs x = some q := hkp _ _ hl.path
  have hkp2 : Keeps h'.docs (modify h'.docs x fun d => { d with subs := d.subs.set m y }) := .modify _ _ _
  have hfq : Frame w root q h.docs (modify h'.docs x fun d => { d with subs := d.subs.set m y }) :=
    (hf.mono (.single ha)).trans (.modify hpx)
  have hx' : ¬ V' x := by
    intro hx
    rcases g4 x q hx hpx with h | h
    · exact hl.not_self hg h
    · exact hmq h
  obtain ⟨dy, hdy, hyu, hyk, _⟩ := g3 y g2
  have hdyp : dy.path = m := by
    unfold pathOf at hy
    rw [hdy] at hy
    cases hy; rfl
  refine ⟨V', ⟨?_, hr'.trans hl.top, ?_, ?_, fun i hi => g1 i (hl.old i hi), ?_, ?_⟩, hfq, dy, hdy, ?_⟩
  · refine hk'.modify x (fun d => { d with subs := d.subs.set m y }) (fun d _ hd => ⟨hd.time, fun f m h1 h2 h3 => hd.text f m h1 h2 h3, hd.only, fun kv hm => ?_⟩) _
    rcases mem_set hm with rfl | hm
    · rw [hr', hl.top]; exact ⟨hyr, (List.getElem?_eq_some_iff.1 hdy).1⟩
    · exact hd.subs kv hm
  · intro i hi
    obtain ⟨d', k1, k2, k3, k4⟩ := g3 i hi
    refine ⟨d', ?_, k2, k3, fun kv hm => ⟨(k4 kv hm).1, hkp2 _ _ (k4 kv hm).2⟩⟩
    show (modify _ _ _)[i]? = _
    rw [modify_get, if_neg (fun e : i = x => hx' (e ▸ hi))]
    exact k1
  · refine ⟨{ d with mtime := t, subs := d.subs.set m y }, by show (modify _ _ _)[x]? = _; rw [modify_get, if_pos rfl, ht]; rfl, h2, h3, ?_, fun kv hkv => ?_⟩
    · show (d.subs.set m y).keys = _
      rw [Dict.keys_set, h4, if_neg (fun h : m ∈ kids w root q ps => hm (List.mem_of_mem_filter h))]
      unfold kids
      rw [List.filter_append]
      simp [ha.2.1, ha.2.2]
    · rcases mem_set hkv with rfl | hkv
      · exact ⟨g2, hkp2 _ _ hy⟩
      · exact ⟨g1 _ (h5 kv hkv).1, hkp2 _ _ (hkp _ _ (h5 kv hkv).2)⟩
  · intro i p hi hp
    have hp' : pathOf h'.docs i = some p := g3.path hkp2 hi hp
    rcases g4 i p hi hp' with h | h
    · rcases hl.new i p h (hl.whole.path hkp h hp') with h | ⟨m', k1, k2⟩
      · exact .inl h
      · exact .inr ⟨m', List.mem_append_left _ k1, k2⟩
    · exact .inr ⟨m, by simp, ha, h⟩
  · rcases hl.out with h | ho
    · exact .inl h
    · refine .inr ?_
      rw [← hl.top] at ho ⊢
      exact ho.frame hl.known hfq (hkp.trans hkp2)
  · cases hb : dy.subs.has q with
    | false => rfl
    | true =>
      rw [Dict.has_iff, hyk, mem_kids, hdyp] at hb
      exact absurd (.single hb) hmq

end

theorem subsLoop_anew {w : World P} {now : Nat} {root : P} (hw : ∀ p f, w p = some f → f.mtime ≤ now) (hu : Unique w root)
    (rec : Heap P → Nat → Except Err Bool × Heap P) (hrec : Loads w now root rec) (V0 : Nat → Prop) (x : Nat) (q : P) (hq : Reach w root q) (hg : Good w root q)
    (subsDict rootDict : Dict P Nat) (r : Nat) (hrd : rootDict.has root = true)
    (hrd2 : ∀ m, Arrow w root q m → subsDict.get? m = none → rootDict.has m = false) :
    ∀ (qs ps : List P) (h : Heap P) (V : Nat → Prop) (b : Bool) (h' : Heap P), ps ++ qs = inc w q → (inc w q).Nodup →
      (∀ m y, m ≠ q → subsDict.get? m = some y → pathOf h.docs y = some m ∧ y ≠ r) →
      Loop w now root V0 x q r ps V h → subsLoop w rec x q subsDict rootDict qs h = (.ok b, h') →
      ∃ V', Loop w now root V0 x q r (inc w q) V' h' ∧ Frame w root q h.docs h'.docs ∧ Keeps h.docs h'.docs := by
  intro qs
  induction qs with
  | nil =>
    intro ps h V b h' hps _ _ hl he
    cases he
    rw [List.append_nil] at hps
    rw [← hps]
    exact ⟨V, hl, .refl _ _ _ _, .refl _⟩
  | cons m qs ih =>
    intro ps h V b h' hps hnd hsd hl he
    have hps' : (ps ++ [m]) ++ qs = inc w q := by rw [← hps]; simp
    have hm : m ∉ ps := by
      rw [← hps, List.nodup_append] at hnd
      exact fun hm => hnd.2.2 m hm m List.mem_cons_self rfl
    have hmi : m ∈ inc w q := by rw [← hps]; simp
    unfold subsLoop at he
    by_cases hmq : m = q
    · rw [if_pos hmq] at he
      exact ih _ h V b h' hps' hnd hsd (hl.skip (.inl hmq)) he
    · rw [if_neg hmq] at he
      cases hy : subsDict.get? m with
      | some y =>
        rw [hy] at he
        simp only at he
        obtain ⟨hyp, hyr⟩ := hsd m y hmq hy
        have hmr : m ≠ root := by
          rintro rfl
          unfold pathOf at hyp
          cases hd : h.docs[y]? with
          | none => rw [hd] at hyp; cases hyp
          | some d =>
            rw [hd] at hyp
            exact hyr (((hl.known.docs y d hd).only (Option.some.inj hyp)).trans hl.top)
        have ha : Arrow w root q m := ⟨hmi, hmq, hmr⟩
        cases hr1 : rec h y with
        | mk res h1 =>
        rw [hr1] at he
        cases res with
        | error e => cases he
        | ok b1 =>
          simp only at he
          obtain ⟨⟨k1, k2, k3⟩, han⟩ := hrec h y m V b1 h1 hl.known hyp (.step hq hmi) hl.whole (hl.apart hu hq hg hm ha) (.inr (hl.outside hu hq hg hm ha)) hr1
          obtain ⟨V', hl', hf', dy, hdy, hno⟩ := hl.add hg hm ha hyr (k3 _ _ hyp) k1 k2 k3 han
          rw [hdy] at he
          simp only [hno, Bool.false_eq_true, if_false] at he
          cases hr2 : subsLoop w rec x q subsDict rootDict qs { h1 with docs := modify h1.docs x fun d => { d with subs := d.subs.set m y } } with
          | mk res h2 =>
          rw [hr2] at he
          cases res with
          | error e => cases he
          | ok b2 =>
            obtain rfl : h2 = h' := congrArg Prod.snd he
            have hkp : Keeps h.docs (modify h1.docs x fun d => { d with subs := d.subs.set m y }) := k3.trans (.modify _ _ _)
            obtain ⟨V2, a1, a2, a3⟩ := ih _ _ V' b2 h2 hps' hnd (fun m y h1 h2 => ⟨hkp _ _ (hsd m y h1 h2).1, (hsd m y h1 h2).2⟩) hl' hr2
            exact ⟨V2, a1, hf'.trans a2, hkp.trans a3⟩
      | none =>
        rw [hy] at he
        simp only at he
        by_cases hmr : m = root
        · rw [if_pos (by rw [hmr]; exact hrd)] at he
          exact ih _ h V b h' hps' hnd hsd (hl.skip (.inr hmr)) he
        · have ha : Arrow w root q m := ⟨hmi, hmq, hmr⟩
          rw [if_neg (by rw [hrd2 m ha hy]; simp)] at he
          have hlt := hl.known.lt
          have hk0 := hl.known.append hw hmr x
          have hkp0 : Keeps h.docs (h.docs ++ [newDoc w m (some x)]) := .append _ _
          have hf0 : Frame w root m h.docs (h.docs ++ [newDoc w m (some x)]) := .append _ _
          have hpy : pathOf (h.docs ++ [newDoc w m (some x)]) h.docs.length = some m := by
            unfold pathOf
            rw [List.getElem?_append_right (Nat.le_refl _), Nat.sub_self]
            rfl
          have hap := hl.apart hu hq hg hm ha
          have hou := hl.outside hu hq hg hm ha
          cases hr1 : rec { h with docs := h.docs ++ [newDoc w m (some x)] } h.docs.length with
          | mk res h1 =>
          rw [hr1] at he
          cases res with
          | error e => cases he
          | ok b1 =>
            simp only at he
            obtain ⟨⟨k1, k2, k3⟩, han⟩ := hrec { h with docs := h.docs ++ [newDoc w m (some x)] } h.docs.length m V b1 h1 hk0 hpy (.step hq hmi)
              (hl.whole.frame hap hf0 hkp0) (fun i p hi hp => hap i p hi (hl.whole.path hkp0 hi hp)) (.inr (hou.frame hl.known hf0 hkp0)) hr1
            have hkp1 : Keeps h.docs h1.docs := hkp0.trans k3
            obtain ⟨V', hl', hf', _⟩ := hl.add hg hm ha (by rw [← hl.top]; omega) (k3 _ _ hpy) k1 k2 hkp1 ⟨hf0.trans han.1, han.2⟩
            cases hr2 : subsLoop w rec x q subsDict rootDict qs { h1 with docs := modify h1.docs x fun d => { d with subs := d.subs.set m h.docs.length } } with
            | mk res h2 =>
            rw [hr2] at he
            cases res with
            | error e => cases he
            | ok b2 =>
              obtain rfl : h2 = h' := congrArg Prod.snd he
              have hkp : Keeps h.docs (modify h1.docs x fun d => { d with subs := d.subs.set m h.docs.length }) := hkp1.trans (.modify _ _ _)
              obtain ⟨V2, a1, a2, a3⟩ := ih _ _ V' b2 h2 hps' hnd (fun m y h1 h2 => ⟨hkp _ _ (hsd m y h1 h2).1, (hsd m y h1 h2).2⟩) hl' hr2
              exact ⟨V2, a1, hf'.trans a2, hkp.trans a3⟩

theorem loadSubs_anew {w : World P} {now : Nat} {root : P} (hw : ∀ p f, w p = some f → f.mtime ≤ now) (hu : Unique w root)
    (rec : Heap P → Nat → Except Err Bool × Heap P) (hrec : Loads w now root rec)
    (h : Heap P) (x : Nat) (V : Nat → Prop) (hk : Known w now root h) (d : Doc P) (hd : h.docs[x]? = some d) (hud : UpToDate w d)
    (hq : Reach w root d.path) (hg : Good w root d.path) (hn : (inc w d.path).Nodup) (hdone : Done w root V h.docs)
    (hap : ∀ i p, V i → pathOf h.docs i = some p → ¬ Star w root d.path p) (hout : x = h.root ∨ Out w root d.path h.root h.docs)
    (b : Bool) (h' : Heap P) (he : loadSubs w rec h x = (.ok b, h')) : Anew w root V x d.path h.docs h'.docs := by
  have hpx : pathOf h.docs x = some d.path := by unfold pathOf; rw [hd]; rfl
  unfold loadSubs at he
  rw [hd] at he
  simp only at he
  cases hR : documentsDict h.docs h.root with
  | none => rw [hR] at he; cases he
  | some rootDict =>
    cases hS : documentsDict h.docs x with
    | none => rw [hR, hS] at he; cases he
    | some subsDict =>
      rw [hR, hS] at he
      simp only at he
      obtain ⟨dr, hdr, hdrp⟩ := hk.first
      have hrd : rootDict.has root = true := by
        obtain ⟨_, d', hd', hm⟩ := docsDict_entries _ _ _ _ hR
        rw [hdr] at hd'; cases hd'
        rw [Dict.has_iff, ← hdrp]; exact hm
      have hkp0 : Keeps h.docs (modify h.docs x fun d => { d with subs := [] }) := .modify _ _ _
      have hf0 : Frame w root d.path h.docs (modify h.docs x fun d => { d with subs := [] }) := .modify hpx
      have hsd : ∀ m y, m ≠ d.path → subsDict.get? m = some y → pathOf (modify h.docs x fun d => { d with subs := [] }) y = some m ∧ y ≠ h.root := by
        intro m y hm hy
        obtain ⟨hb, d', hd', hp⟩ := (docsDict_entries _ _ _ _ hS).1 _ (Dict.mem_of_get? _ _ _ hy)
        simp only at hd' hp hb
        refine ⟨hkp0 _ _ (by unfold pathOf; rw [hd', ← hp]; rfl), ?_⟩
        rintro rfl
        obtain rfl := hk.below_root hb
        rw [hd] at hd'; cases hd'
        exact hm hp.symm
      have hrd2 : ∀ m, Arrow w root d.path m → subsDict.get? m = none → rootDict.has m = false := by
        intro m ha hm
        rcases hout with hx | ho
        · rw [hx, hR] at hS
          cases hS
          unfold Dict.has
          rw [hm]; rfl
        · cases hb : rootDict.has m with
          | false => rfl
          | true =>
            obtain ⟨y, hy⟩ := Option.isSome_iff_exists.1 hb
            obtain ⟨hb, d', hd', hp⟩ := (docsDict_entries _ _ _ _ hR).1 _ (Dict.mem_of_get? _ _ _ hy)
            simp only at hd' hp hb
            exact absurd (.single ha) (ho y m hb (by unfold pathOf; rw [hd', ← hp]; rfl))
      have hk1 : Known w now root { h with docs := modify h.docs x fun d => { d with subs := [] } } :=
        hk.modify x (fun d => { d with subs := [] }) (fun d' _ h' => ⟨h'.time, fun f m h1 h2 h3 => h'.text f m h1 h2 h3, h'.only, fun kv hm => absurd hm List.not_mem_nil⟩) _
      have hloop : Loop w now root V x d.path h.root [] V { h with docs := modify h.docs x fun d => { d with subs := [] } } := by
        refine ⟨hk1, rfl, hdone.frame hap hf0 hkp0, ⟨{ d with subs := [] }, ?_, rfl, hud, rfl, fun kv hm => absurd hm List.not_mem_nil⟩, fun _ h => h,
          fun i p hi hp => .inl ⟨hi, hap i p hi (hdone.path hkp0 hi hp)⟩, ?_⟩
        · show (modify _ _ _)[x]? = _
          rw [modify_get, if_pos rfl, hd]; rfl
        · rcases hout with hx | ho
          · exact .inl hx
          · exact .inr (ho.frame hk hf0 hkp0)
      rw [hud.inc] at he
      cases hr : subsLoop w rec x d.path subsDict rootDict (inc w d.path) { h with docs := modify h.docs x fun d => { d with subs := [] } } with
      | mk res h2 =>
      rw [hr] at he
      cases res with
      | error e => cases he
      | ok b2 =>
        obtain ⟨V', hl, hf, hkp⟩ := subsLoop_anew hw hu rec hrec V x d.path hq hg subsDict rootDict h.root hrd hrd2 (inc w d.path) [] _ V b2 h2
          rfl hn hsd hloop hr
        obtain rfl : { h2 with docs := updateMtime (h2.docs.length + 1) ((h2.docs[x]?).bind (·.mtime)) h2.docs x } = h' := congrArg Prod.snd he
        have hft : Frame w root d.path h2.docs (updateMtime (h2.docs.length + 1) ((h2.docs[x]?).bind (·.mtime)) h2.docs x) :=
          fun i d hd _ => updateMtime_get _ _ _ _ i d hd
        have hkt := updateMtime_keeps ((h2.docs[x]?).bind (·.mtime)) (h2.docs.length + 1) h2.docs x
        refine ⟨(hf0.trans hf).trans hft, fun i => V' i ∨ i = x, fun i hi => .inl (hl.old i hi), .inr rfl, ?_, ?_⟩
        · rintro i (hi | rfl)
          · obtain ⟨d', h1, g2, h3, h4⟩ := hl.whole i hi
            obtain ⟨v, hv⟩ := updateMtime_get ((h2.docs[x]?).bind (·.mtime)) (h2.docs.length + 1) h2.docs x i d' h1
            exact ⟨_, hv, g2, h3, fun kv hm => ⟨.inl (h4 kv hm).1, hkt _ _ (h4 kv hm).2⟩⟩
          · obtain ⟨d', h1, g2, h3, h4, h5⟩ := hl.self
            obtain ⟨v, hv⟩ := updateMtime_get ((h2.docs[i]?).bind (·.mtime)) (h2.docs.length + 1) h2.docs i i d' h1
            exact ⟨_, hv, h3, by show d'.subs.keys = kids w root d'.path (inc w d'.path); rw [g2]; exact h4, fun kv hm => ⟨.inl (h5 kv hm).1, hkt _ _ (h5 kv hm).2⟩⟩
        · rintro i p (hi | rfl) hp
          · rcases hl.new i p hi (hl.whole.path hkt hi hp) with ⟨h, _⟩ | ⟨m, _, ha, hs⟩
            · exact .inl h
            · exact .inr (.head ha hs)
          · have := hkt _ _ hl.path
            have hp : pathOf (updateMtime (h2.docs.length + 1) ((h2.docs[i]?).bind (·.mtime)) h2.docs i) i = some p := hp
            rw [this] at hp
            cases hp
            exact .inr .refl

/-- A document that need not be loaded is up to date. -/
theorem notRequired {w : World P} {now : Nat} {root : P} {h : Heap P} {alive : Nat → Bool} {x : Nat} {d : Doc P} {f : File P} (hk : Known w now root h)
    (hd : h.docs[x]? = some d) (hf : w d.path = some f) (hreq : loadRequired alive h.docs d f.mtime = false) : UpToDate w d := by
  unfold loadRequired at hreq
  cases hl : d.loaded with
  | false => rw [hl] at hreq; cases hreq
  | true =>
    cases hb : d.body with
    | false => rw [hl, hb] at hreq; cases hreq
    | true =>
      cases hm : d.mtime with
      | none => rw [hl, hb, hm] at hreq; cases hreq
      | some last =>
        rw [hl, hb, hm] at hreq
        simp only [Bool.not_true, Bool.false_eq_true, if_false] at hreq
        by_cases hlt : f.mtime > last
        · rw [if_pos hlt] at hreq; cases hreq
        · exact ((hk.docs x d hd).text f last hl hm hf).resolve_left hlt

theorem load_anew {w : World P} {now : Nat} {root : P} (hw : ∀ p f, w p = some f → f.mtime ≤ now) (hu : Unique w root) (hg : Good w root root)
    (hn : ∀ p, (inc w p).Nodup) (alive : Nat → Bool) : ∀ (fuel : Nat) (reload : Bool), Loads w now root (load w alive fuel reload) := by
  intro fuel
  induction fuel with
  | zero => intro reload h y m V b h' _ _ _ _ _ _ he; cases he
  | succ fuel ih =>
    intro reload h x q V b h' hk hpx hq hdone hap hout he
    have hgq : Good w root q := hg.star (reach_star hq)
    refine ⟨?_, ?_⟩
    · have := load_loaded hw alive (fuel + 1) reload h x (fun _ => False) hk (fun _ h => h.elim)
      rw [he] at this
      exact ⟨this.1, this.2.1, this.2.2.1⟩
    · unfold load at he
      cases hd : h.docs[x]? with
      | none => rw [hd] at he; cases he
      | some d =>
        rw [hd] at he
        obtain rfl : d.path = q := by
          unfold pathOf at hpx
          rw [hd] at hpx
          exact Option.some.inj hpx
        simp only at he
        cases hf : w d.path with
        | none => rw [hf] at he; cases he
        | some f =>
          rw [hf] at he
          simp only at he
          by_cases hreq : (loadRequired alive h.docs d f.mtime || reload) = true
          · rw [if_pos hreq] at he
            unfold onload at he
            cases hs : f.sizeOk with
            | false => rw [hs] at he; cases he
            | true =>
              cases hi : f.includes with
              | none => rw [hs, hi] at he; cases he
              | some incs =>
                rw [hs, hi] at he
                simp only [Bool.not_true, Bool.false_eq_true, if_false] at he
                have hud : UpToDate w { d with loaded := true, mtime := some f.mtime, body := true, includes := incs, text := f.text } :=
                  ⟨rfl, f, hf, hs, rfl, hi⟩
                have hk1 : Known w now root { h with docs := modify h.docs x fun d => { d with loaded := true, mtime := some f.mtime, body := true, includes := incs, text := f.text }, loads := h.loads ++ [x] } := by
                  refine hk.modify x (fun d => { d with loaded := true, mtime := some f.mtime, body := true, includes := incs, text := f.text }) (fun d' hd' h' => ⟨fun m hm => ?_, fun f' m _ _ _ => .inr ?_, h'.only, h'.subs⟩) _
                  · cases hm; exact hw _ _ hf
                  · obtain rfl : d = d' := by rw [hd] at hd'; exact Option.some.inj hd'
                    exact hud
                have hkp : Keeps h.docs (modify h.docs x fun d => { d with loaded := true, mtime := some f.mtime, body := true, includes := incs, text := f.text }) := .modify _ _ _
                have hfr : Frame w root d.path h.docs (modify h.docs x fun d => { d with loaded := true, mtime := some f.mtime, body := true, includes := incs, text := f.text }) := .modify hpx
                cases hr : loadSubs w (load w alive fuel false) { h with docs := modify h.docs x fun d => { d with loaded := true, mtime := some f.mtime, body := true, includes := incs, text := f.text }, loads := h.loads ++ [x] } x with
                | mk res h2 =>
                rw [hr] at he
                cases res with
                | error e => cases he
                | ok b2 =>
                  obtain rfl : h2 = h' := congrArg Prod.snd he
                  obtain ⟨a1, a2⟩ := loadSubs_anew hw hu _ (ih false) _ x V hk1 { d with loaded := true, mtime := some f.mtime, body := true, includes := incs, text := f.text }
                    (by show (modify _ _ _)[x]? = _; rw [modify_get, if_pos rfl, hd]; rfl) hud hq hgq (hn _) (hdone.frame hap hfr hkp)
                    (fun i p hi hp => hap i p hi (hdone.path hkp hi hp))
                    (hout.imp id fun ho => ho.frame hk hfr hkp) b2 h2 hr
                  exact ⟨hfr.trans a1, a2⟩
          · rw [if_neg hreq] at he
            have hreq : loadRequired alive h.docs d f.mtime = false := by
              cases hl : loadRequired alive h.docs d f.mtime with
              | false => rfl
              | true => rw [hl] at hreq; exact absurd rfl hreq
            exact loadSubs_anew hw hu _ (ih false) h x V hk d hd (notRequired hk hd hf hreq) hq hgq (hn _) hdone hap hout b h' he

/-! ### The tree of documents -/

variable (docs : List (Doc P))

mutual
  /-- The documents of a tree. -/
  def RepN : Tree P Nat → Prop
    | .node x p l => (∃ d, docs[x]? = some d ∧ d.path = p ∧ d.subs = entries l) ∧ RepNL l
  def RepNL : List (Tree P Nat) → Prop
    | [] => True
    | t :: l => RepN t ∧ RepNL l
end

variable {docs}

theorem repNL_iff (l : List (Tree P Nat)) : RepNL docs l ↔ ∀ t ∈ l, RepN docs t := by
  induction l with
  | nil => simp [RepNL]
  | cons t l ih => simp [RepNL, ih]

mutual
  theorem repN_paths : ∀ t : Tree P Nat, RepN docs t → t.labs.map (pathOf docs) = t.paths.map some
    | .node x p l, h => by
      simp only [RepN] at h
      obtain ⟨⟨d, h1, h2, _⟩, hl⟩ := h
      simp only [Tree.labs, Tree.paths, List.map_cons]
      rw [repNL_paths l hl]
      unfold pathOf
      rw [h1, ← h2]
      rfl
  theorem repNL_paths : ∀ l : List (Tree P Nat), RepNL docs l → (labsL l).map (pathOf docs) = (pathsL l).map some
    | [], _ => rfl
    | t :: l, h => by
      simp only [RepNL] at h
      simp only [labsL, pathsL, List.map_append]
      rw [repN_paths t h.1, repNL_paths l h.2]
end

mutual
  theorem repN_dict : ∀ (t : Tree P Nat) (fuel : Nat), RepN docs t → t.depth ≤ fuel → (t.pairs.map (·.1)).Nodup → docsDict docs fuel t.lab = some t.pairs
    | .node x p l, 0, _, h, _ => by simp [Tree.depth] at h
    | .node x p l, fuel + 1, hr, h, hn => by
      simp only [RepN] at hr
      obtain ⟨⟨d, h1, h2, h3⟩, hl⟩ := hr
      simp only [Tree.depth] at h
      simp only [docsDict, Tree.lab, h1, h2, h3]
      exact repNL_dict l fuel [(p, x)] hl (by omega) hn
  theorem repNL_dict : ∀ (l : List (Tree P Nat)) (fuel : Nat) (acc : Dict P Nat), RepNL docs l → depthL l ≤ fuel → ((acc ++ pairsL l).map (·.1)).Nodup →
      dictLoop (docsDict docs fuel) acc (entries l) = some (acc ++ pairsL l)
    | [], _, acc, _, _, _ => by simp [entries, dictLoop, pairsL]
    | t :: l, fuel, acc, hl, h, hn => by
      simp only [RepNL] at hl
      simp only [depthL] at h
      have hn2 : (t.pairs.map (·.1)).Nodup := by
        simp only [pairsL, List.map_append, List.nodup_append] at hn
        exact hn.2.1.1
      have e : acc.update t.pairs = acc ++ t.pairs := by
        rw [Dict.update_append_new]
        simp only [pairsL, ← List.append_assoc] at hn
        rw [List.map_append, List.nodup_append] at hn
        have := hn.1
        rw [List.map_append] at this
        exact this
      simp only [entries, List.map_cons, dictLoop]
      rw [repN_dict t fuel hl.1 (by omega) hn2]
      simp only
      rw [e]
      have := repNL_dict l fuel (acc ++ t.pairs) hl.2 (by omega) (by simpa [pairsL] using hn)
      rw [show (pairsL (t :: l)) = t.pairs ++ pairsL l from rfl, ← List.append_assoc]
      exact this
end

mutual
  theorem shape_unique {w : World P} {root : P} : ∀ (t t' : Tree P Unit), Shape w root t → Shape w root t' → t.path = t'.path → t = t'
    | .node () p l, .node () p' l', h, h', e => by
      simp only [Shape, shapeAt] at h h'
      obtain rfl : p = p' := e
      rw [shapeL_unique l l' h.2.2 h'.2.2 (by rw [h.2.1, h'.2.1])]
  theorem shapeL_unique {w : World P} {root : P} : ∀ (l l' : List (Tree P Unit)), ShapeL w root l → ShapeL w root l' → l.map Tree.path = l'.map Tree.path → l = l'
    | [], [], _, _, _ => rfl
    | [], _ :: _, _, _, e => by simp at e
    | _ :: _, [], _, _, e => by simp at e
    | t :: l, t' :: l', h, h', e => by
      simp only [ShapeL] at h h'
      simp only [List.map_cons, List.cons.injEq] at e
      rw [shape_unique t t' h.1 h'.1 e.1, shapeL_unique l l' h.2 h'.2 e.2]
end

/-- Documents that are up to date form a tree. -/
theorem Done.tree {w : World P} {root : P} {V : Nat → Prop} (hd : Done w root V docs) {p : P} (hg : Good w root p) :
    ∀ i, V i → pathOf docs i = some p → ∃ t, RepN docs t ∧ t.lab = i ∧ t.path = p ∧ Shape w root t ∧ ∀ j ∈ t.labs, V j := by
  induction hg with
  | @mk p hc hn ih =>
    intro i hi hp
    obtain ⟨d, h1, h2, h3, h4⟩ := hd i hi
    obtain rfl : d.path = p := by
      unfold pathOf at hp
      rw [h1] at hp
      exact Option.some.inj hp
    have key : ∀ s : Dict P Nat, (∀ kv ∈ s, Arrow w root d.path kv.1 ∧ V kv.2 ∧ pathOf docs kv.2 = some kv.1) →
        ∃ l : List (Tree P Nat), RepNL docs l ∧ entries l = s ∧ ShapeL w root l ∧ ∀ j ∈ labsL l, V j := by
      intro s
      induction s with
      | nil => exact fun _ => ⟨[], trivial, rfl, trivial, fun j hj => by simp [labsL] at hj⟩
      | cons a s ihs =>
        intro hs
        obtain ⟨l, l1, l2, l3, l4⟩ := ihs fun kv hm => hs kv (List.mem_cons_of_mem _ hm)
        obtain ⟨a1, a2, a3⟩ := hs a List.mem_cons_self
        obtain ⟨t, t1, t2, t3, t4, t5⟩ := ih a.1 a1 a.2 a2 a3
        refine ⟨t :: l, ⟨t1, l1⟩, ?_, ⟨t4, l3⟩, fun j hj => ?_⟩
        · unfold entries at l2 ⊢
          rw [List.map_cons, l2, t2, t3]
        · rcases List.mem_append.1 hj with h | h
          · exact t5 j h
          · exact l4 j h
    obtain ⟨l, l1, l2, l3, l4⟩ := key d.subs fun kv hm => ⟨mem_kids.1 (h3 ▸ List.mem_map_of_mem hm), h4 kv hm⟩
    refine ⟨.node i d.path l, ?_, rfl, rfl, ?_, fun j hj => ?_⟩
    · simp only [RepN]
      exact ⟨⟨d, h1, rfl, l2.symm⟩, l1⟩
    · simp only [Shape, shapeAt]
      refine ⟨hc, ?_, l3⟩
      rw [show l.map Tree.path = (entries l).map (·.1) by simp [entries], l2]
      exact h3
    · rcases List.mem_cons.1 hj with rfl | hj
      · exact hi
      · exact l4 j hj

/-- The documents of a project that was loaded, after any edits. -/
theorem anew_list {w : World P} {now : Nat} {root : P} {h h' : Heap P} {alive : Nat → Bool} {fuel : Nat} {reload b : Bool}
    (hk : Known w now root h) (hw : ∀ p f, w p = some f → f.mtime ≤ now) (hu : Unique w root) (hn : ∀ p, (inc w p).Nodup)
    {f : Nat} {T : Tree P Unit} (hT : unfoldRoot w f root = some T) (hTp : T.path = root) (he : load w alive fuel reload h h.root = (.ok b, h')) :
    ∃ l, documentsList h'.docs h'.root = some l ∧ l.map (pathOf h'.docs) = T.paths.map some ∧
      ∀ y ∈ l, ∃ d, h'.docs[y]? = some d ∧ UpToDate w d ∧ d.subs.keys = kids w root d.path (inc w d.path) := by
  have hg := unfoldRoot_good f T hT
  obtain ⟨dr, hdr, hdrp⟩ := hk.first
  have hp : pathOf h.docs h.root = some root := by unfold pathOf; rw [hdr, ← hdrp]; rfl
  obtain ⟨⟨k1, k2, k3⟩, _, V, _, hV, hdone, _⟩ := load_anew hw hu hg hn alive fuel reload h h.root root (fun _ => False) b h' hk hp .root
    (fun _ h => h.elim) (fun _ _ h => h.elim) (.inl rfl) he
  obtain ⟨t, t1, t2, t3, t4, t5⟩ := hdone.tree hg h.root hV (k3 _ _ hp)
  have hTe : t.erase = T := shape_unique _ _ ((shape_erase w root t).2 t4) (unfoldRoot_shape hu hn f T hT) (by rw [erase_path, t3, hTp])
  have hpaths : t.paths = T.paths := by rw [← hTe, paths_erase]
  have hpn : t.paths.Nodup := by rw [hpaths]; exact unfoldRoot_paths hu hn f T hT
  have hmap := repN_paths t t1
  have hln : t.labs.Nodup := by
    apply List.Nodup.of_map (pathOf h'.docs)
    rw [hmap]
    exact hpn.map (fun _ _ h => Option.some.inj h)
  have hlt : ∀ i ∈ t.labs, i < h'.docs.length := by
    intro i hi
    obtain ⟨d, hd, _⟩ := hdone i (t5 i hi)
    exact (List.getElem?_eq_some_iff.1 hd).1
  have hdict : documentsDict h'.docs t.lab = some t.pairs := by
    apply repN_dict t _ t1
    · have h1 := depth_le t
      have h2 := length_le_of_nodup h'.docs.length t.labs hln hlt
      omega
    · rw [pairs_paths]; exact hpn
  refine ⟨t.labs, ?_, by rw [hmap, hpaths], fun y hy => ?_⟩
  · unfold documentsList
    rw [k2, ← t2, hdict, Option.map_some, pairs_labs]
  · obtain ⟨d, h1, h2, h3, _⟩ := hdone y (t5 y hy)
    exact ⟨d, h1, h2, h3⟩

end Verif.Documents
