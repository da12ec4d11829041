import Verif.Lemmas.Document

/-!
# The creation of documents
-/

namespace Verif.Documents

open Verif Verif.Documents.Spec

variable {P : Type} [DecidableEq P]

/-- The subdocuments that a document gets. -/
def unfoldLoop (rec : List (Tree P Unit) → P → Option (Tree P Unit)) (skip : List P) (q : P) :
    List P → List (Tree P Unit) → Option (List (Tree P Unit))
  | [], acc => some acc
  | m :: ms, acc =>
    if m = q ∨ m ∈ skip then unfoldLoop rec skip q ms acc
    else match rec acc m with
      | none => none
      | some t => unfoldLoop rec skip q ms (put acc t)

/-- The tree of a document that is not the root, when the files `R` are in the project. -/
def unfold (w : World P) (R : List P) : Nat → P → Option (Tree P Unit)
  | 0, _ => none
  | f + 1, q =>
    match contents w q with
    | none => none
    | some incs => (unfoldLoop (fun _ m => unfold w R f m) R q incs []).map (.node () q)

/-- The tree of a root document. -/
def unfoldRoot (w : World P) : Nat → P → Option (Tree P Unit)
  | 0, _ => none
  | f + 1, q =>
    match contents w q with
    | none => none
    | some incs => (unfoldLoop (fun acc m => unfold w (Tree.keys (.node () q acc)) f m) [q] q incs []).map (.node () q)

theorem unfold_path (w : World P) (R : List P) (f : Nat) (q : P) (t : Tree P Unit) (h : unfold w R f q = some t) : t.path = q := by
  cases f with
  | zero => simp [unfold] at h
  | succ f =>
    simp only [unfold] at h
    split at h
    · simp at h
    · rw [Option.map_eq_some_iff] at h
      obtain ⟨_, _, rfl⟩ := h
      rfl

/-! ### Times -/

section
variable (w : World P) (docs : List (Doc P))

mutual
  /-- No document is older than its file, or than the document it belongs to. -/
  def Timed : Tree P Nat → Nat → Prop
    | .node x p l, lo => ∃ m, timeOf docs x = some m ∧ lo ≤ m ∧ (∀ f, w p = some f → f.mtime ≤ m) ∧ TimedL l m
  def TimedL : List (Tree P Nat) → Nat → Prop
    | [], _ => True
    | t :: l, lo => Timed t lo ∧ TimedL l lo
end
end

section
variable {w : World P} {docs docs' : List (Doc P)}

mutual
  theorem timed_mono : ∀ (t : Tree P Nat) (lo lo' : Nat), lo' ≤ lo → Timed w docs t lo → Timed w docs t lo'
    | .node x p l, lo, lo', h, ht => by
      simp only [Timed] at ht ⊢
      obtain ⟨m, h1, h2, h3, h4⟩ := ht
      exact ⟨m, h1, by omega, h3, h4⟩
  theorem timedL_mono : ∀ (l : List (Tree P Nat)) (lo lo' : Nat), lo' ≤ lo → TimedL w docs l lo → TimedL w docs l lo'
    | [], _, _, _, _ => trivial
    | t :: l, lo, lo', h, ht => by
      simp only [TimedL] at ht ⊢
      exact ⟨timed_mono t lo lo' h ht.1, timedL_mono l lo lo' h ht.2⟩
end

mutual
  theorem timed_congr : ∀ (t : Tree P Nat) (lo : Nat), (∀ i ∈ t.labs, docs'[i]? = docs[i]?) → Timed w docs t lo → Timed w docs' t lo
    | .node x p l, lo, he, ht => by
      simp only [Timed] at ht ⊢
      obtain ⟨m, h1, h2, h3, h4⟩ := ht
      refine ⟨m, ?_, h2, h3, timedL_congr l m (fun i hi => he i (by simp [Tree.labs, hi])) h4⟩
      unfold timeOf at h1 ⊢
      rw [he x (by simp [Tree.labs]), h1]
  theorem timedL_congr : ∀ (l : List (Tree P Nat)) (lo : Nat), (∀ i ∈ labsL l, docs'[i]? = docs[i]?) → TimedL w docs l lo → TimedL w docs' l lo
    | [], _, _, _ => trivial
    | t :: l, lo, he, ht => by
      simp only [TimedL] at ht ⊢
      exact ⟨timed_congr t lo (fun i hi => he i (by simp [labsL, hi])) ht.1, timedL_congr l lo (fun i hi => he i (by simp [labsL, hi])) ht.2⟩
end

mutual
  theorem timed_raised {m : Nat} {S : List Nat} (hr : Raised m docs docs' S) : ∀ (t : Tree P Nat) (lo : Nat), (∀ i ∈ t.labs, i ∈ S) →
      Timed w docs t lo → Timed w docs' t (max m lo)
    | .node x p l, lo, hs, ht => by
      simp only [Timed] at ht ⊢
      obtain ⟨v, h1, h2, h3, h4⟩ := ht
      refine ⟨max m v, ?_, by omega, fun f hf => ?_, timedL_raised hr l v (fun i hi => hs i (by simp [Tree.labs, hi])) h4⟩
      · unfold timeOf at h1 ⊢
        rw [hr x, if_pos (hs x (by simp [Tree.labs]))]
        cases hd : docs[x]? with
        | none => rw [hd] at h1; simp at h1
        | some d =>
          rw [hd] at h1
          simp only [Option.bind_some] at h1
          simp [raise, h1]
      · have := h3 f hf
        omega
  theorem timedL_raised {m : Nat} {S : List Nat} (hr : Raised m docs docs' S) : ∀ (l : List (Tree P Nat)) (lo : Nat), (∀ i ∈ labsL l, i ∈ S) →
      TimedL w docs l lo → TimedL w docs' l (max m lo)
    | [], _, _, _ => trivial
    | t :: l, lo, hs, ht => by
      simp only [TimedL] at ht ⊢
      exact ⟨timed_raised hr t lo (fun i hi => hs i (by simp [labsL, hi])) ht.1, timedL_raised hr l lo (fun i hi => hs i (by simp [labsL, hi])) ht.2⟩
end

theorem timedL_iff (l : List (Tree P Nat)) (lo : Nat) : TimedL w docs l lo ↔ ∀ t ∈ l, Timed w docs t lo := by
  induction l with
  | nil => simp [TimedL]
  | cons t l ih => simp [TimedL, ih]
end

theorem updateMtime_length : ∀ (fu : Nat) (mm : Option Nat) (dd : List (Doc P)) (y : Nat), (updateMtime fu mm dd y).length = dd.length := by
  intro fu
  induction fu with
  | zero => intros; rfl
  | succ fu ihf =>
    intro mm dd y
    simp only [updateMtime]
    split
    · rfl
    · rename_i dy hdy
      have hfold : ∀ (l : List (P × Nat)) (dd : List (Doc P)),
          (l.foldl (fun docs kv => updateMtime fu mm docs kv.2) dd).length = dd.length := by
        intro l
        induction l with
        | nil => intros; rfl
        | cons a l ihl => intro dd; rw [List.foldl_cons, ihl, ihf]
      rw [hfold]
      split
      · split
        · rw [modify_length]
        · rfl
      · rfl

/-! ### The loop -/

theorem put_new {A : Type} (l : List (Tree P A)) (t : Tree P A) (h : t.path ∉ l.map Tree.path) : put l t = l ++ [t] := by
  induction l with
  | nil => rfl
  | cons s l ih =>
    rw [List.map_cons, List.mem_cons] at h
    rw [put, if_neg (fun e => h (Or.inl e.symm)), ih (fun e => h (Or.inr e))]
    rfl

theorem labsL_append {A : Type} (l l' : List (Tree P A)) : labsL (l ++ l') = labsL l ++ labsL l' := by
  induction l with
  | nil => rfl
  | cons s l ih => simp [labsL, ih]

/-- What is made for a new document `x`. -/
def Made (w : World P) (h h' : Heap P) (x : Nat) (par : Option Nat) (T : Tree P Unit) : Prop :=
  ∃ t : Tree P Nat, t.lab = x ∧ t.erase = T ∧ Rep (inc w) h'.docs t par ∧ Timed w h'.docs t 0 ∧ t.labs.Nodup ∧
    (∀ i ∈ t.labs, x ≤ i) ∧ h'.root = h.root ∧ h.docs.length ≤ h'.docs.length ∧ (∀ i < x, h'.docs[i]? = h.docs[i]?) ∧
    ∃ l, h'.loads = h.loads ++ l ∧ (∀ i ∈ t.labs, i ∈ l) ∧ ((∀ p, (inc w p).Nodup) → l = t.labs)

/-- The state of the loop over the includes of a new document `x`. -/
structure LInv (w : World P) (h0 h : Heap P) (x : Nat) (d : Doc P) (ts : List (Tree P Nat)) : Prop where
  root : h.root = h0.root
  len : h0.docs.length ≤ h.docs.length
  same : ∀ i < x, h.docs[i]? = h0.docs[i]?
  self : h.docs[x]? = some { d with subs := entries ts }
  rep : RepL (inc w) h.docs ts x
  timed : TimedL w h.docs ts 0
  nodup : (labsL ts).Nodup
  above : ∀ i ∈ labsL ts, x < i
  loads : ∃ l, h.loads = h0.loads ++ l ∧ (∀ i ∈ labsL ts, i ∈ l) ∧ ((∀ p, (inc w p).Nodup) → l = labsL ts)

theorem subsLoop_new (w : World P) (rec : Heap P → Nat → Except Err Bool × Heap P)
    (urec : List (Tree P Unit) → P → Option (Tree P Unit)) (h0 : Heap P) (x : Nat) (q : P) (d : Doc P) (rootDict : Dict P Nat)
    (hpath : ∀ acc m T, urec acc m = some T → T.path = m)
    (hrec : ∀ h ts m, LInv w h0 h x d ts → m ≠ q → m ∉ rootDict.keys →
      match urec (eraseL ts) m with
      | none => ∃ e h', rec { h with docs := h.docs ++ [newDoc w m (some x)] } h.docs.length = (.error e, h')
      | some T => ∃ b h', rec { h with docs := h.docs ++ [newDoc w m (some x)] } h.docs.length = (.ok b, h') ∧
          Made w { h with docs := h.docs ++ [newDoc w m (some x)] } h' h.docs.length (some x) T) :
    ∀ (ms : List P) (h : Heap P) (ts : List (Tree P Nat)), LInv w h0 h x d ts →
      ((∀ p, (inc w p).Nodup) → (ts.map Tree.path ++ ms).Nodup) →
      match unfoldLoop urec rootDict.keys q ms (eraseL ts) with
      | none => ∃ e h', subsLoop w rec x q [(q, x)] rootDict ms h = (.error e, h')
      | some acc => ∃ b h' ts', subsLoop w rec x q [(q, x)] rootDict ms h = (.ok b, h') ∧ eraseL ts' = acc ∧ LInv w h0 h' x d ts' := by
  intro ms
  induction ms with
  | nil =>
    intro h ts hi hnd
    simp only [unfoldLoop]
    exact ⟨false, h, ts, rfl, rfl, hi⟩
  | cons m ms ih =>
    intro h ts hi hnd
    have hnd' : (∀ p, (inc w p).Nodup) → (ts.map Tree.path ++ ms).Nodup := fun hp => by
      have := hnd hp
      rw [List.nodup_append] at this ⊢
      exact ⟨this.1, (List.nodup_cons.1 this.2.1).2, fun a ha b hb => this.2.2 a ha b (List.mem_cons_of_mem _ hb)⟩
    by_cases hq : m = q
    · simp only [unfoldLoop, if_pos (Or.inl hq : m = q ∨ m ∈ rootDict.keys), subsLoop, if_pos hq]
      exact ih h ts hi hnd'
    · have hget : Dict.get? [(q, x)] m = none := by
        simp [Dict.get?, Ne.symm hq]
      by_cases hk : m ∈ rootDict.keys
      · have hh : rootDict.has m = true := (Dict.has_iff _ _).2 hk
        simp only [unfoldLoop, if_pos (Or.inr hk : m = q ∨ m ∈ rootDict.keys), subsLoop, if_neg hq, hget, if_pos hh]
        exact ih h ts hi hnd'
      · have hh : ¬ rootDict.has m = true := fun h => hk ((Dict.has_iff _ _).1 h)
        have hno : ¬ (m = q ∨ m ∈ rootDict.keys) := fun h => h.elim hq hk
        have hr := hrec h ts m hi hq hk
        simp only [unfoldLoop, if_neg hno, subsLoop, if_neg hq, hget, if_neg hh]
        cases hu : urec (eraseL ts) m with
        | none =>
          rw [hu] at hr
          obtain ⟨e, h', hr⟩ := hr
          exact ⟨e, h', by rw [hr]⟩
        | some T =>
          rw [hu] at hr
          simp only at hr ⊢
          obtain ⟨b, h', hr, t, ht1, ht2, ht3, ht4, ht5, ht6, ht7, ht8, ht9, l, hl1, hl2, hl3⟩ := hr
          have hxlt : x < h.docs.length := (List.getElem?_eq_some_iff.1 hi.self).1
          have htp : t.path = m := by rw [← erase_path, ht2]; exact hpath _ _ _ hu
          have hfresh : (∀ p, (inc w p).Nodup) → t.path ∉ ts.map Tree.path := fun hp hm => by
            have := hnd hp
            rw [List.nodup_append] at this
            exact this.2.2 _ hm m (by simp) htp
          have hold : ∀ i < h.docs.length, h'.docs[i]? = h.docs[i]? := by
            intro i hlt
            rw [ht9 i hlt]
            exact List.getElem?_append_left hlt
          have hlen : h.docs.length ≤ h'.docs.length := by
            have := ht8
            simp at this
            omega
          have hx' := hold x hxlt
          rw [hi.self] at hx'
          have hinv : LInv w h0 { h' with docs := modify h'.docs x fun d => { d with subs := d.subs.set m h.docs.length } } x d (put ts t) := by
            have hmod : ∀ i, i ≠ x → (modify h'.docs x fun d => { d with subs := d.subs.set m h.docs.length })[i]? = h'.docs[i]? := by
              intro i hne
              rw [modify_get, if_neg hne]
            refine ⟨?_, ?_, ?_, ?_, ?_, ?_, ?_, ?_, ?_⟩
            · exact ht7.trans hi.root
            · simp only [modify_length]; have := hi.len; omega
            · intro i hix
              show (modify _ _ _)[i]? = _
              rw [hmod i (by omega), hold i (by omega), hi.same i hix]
            · show (modify _ _ _)[x]? = _
              rw [modify_get, if_pos rfl, hx', Option.map_some, entries_put, htp, ht1]
            · rw [repL_iff]
              intro s hs
              rcases mem_put _ _ _ hs with rfl | hs
              · refine rep_later s _ ht3 (later_of_eq fun i hmem => ?_)
                exact hmod i (by have := ht6 i hmem; omega)
              · refine rep_later s _ ((repL_iff _ _ _ _).1 hi.rep s hs) (later_of_eq fun i hmem => ?_)
                have hmem' : i ∈ labsL ts := (mem_labsL _ _).2 ⟨s, hs, hmem⟩
                have h1 := repL_lt ts x hi.rep i hmem'
                have h2 := hi.above i hmem'
                show (modify _ _ _)[i]? = _
                rw [hmod i (by omega), hold i h1]
            · rw [timedL_iff]
              intro s hs
              rcases mem_put _ _ _ hs with rfl | hs
              · refine timed_congr s _ (fun i hmem => ?_) ht4
                exact hmod i (by have := ht6 i hmem; omega)
              · refine timed_congr s _ (fun i hmem => ?_) ((timedL_iff _ _).1 hi.timed s hs)
                have hmem' : i ∈ labsL ts := (mem_labsL _ _).2 ⟨s, hs, hmem⟩
                have h1 := repL_lt ts x hi.rep i hmem'
                have h2 := hi.above i hmem'
                show (modify _ _ _)[i]? = _
                rw [hmod i (by omega), hold i h1]
            · refine labsL_put_nodup ts t hi.nodup ht5 fun i hmem hmem' => ?_
              have h1 := repL_lt ts x hi.rep i hmem'
              have h2 := ht6 i hmem
              omega
            · intro i hmem
              obtain ⟨s, hs, hmem2⟩ := (mem_labsL _ _).1 hmem
              rcases mem_put _ _ _ hs with rfl | hs
              · have := ht6 i hmem2; omega
              · exact hi.above i ((mem_labsL _ _).2 ⟨s, hs, hmem2⟩)
            · obtain ⟨l0, hl0, hl0', hl0''⟩ := hi.loads
              refine ⟨l0 ++ l, ?_, ?_, ?_⟩
              · show h'.loads = _
                rw [hl1, ← List.append_assoc, ← hl0]
              · intro i hmem
                obtain ⟨s, hs, hmem2⟩ := (mem_labsL _ _).1 hmem
                rcases mem_put _ _ _ hs with rfl | hs
                · exact List.mem_append_right _ (hl2 i hmem2)
                · exact List.mem_append_left _ (hl0' i ((mem_labsL _ _).2 ⟨s, hs, hmem2⟩))
              · intro hp
                rw [put_new ts t (hfresh hp), labsL_append, hl0'' hp, hl3 hp]
                simp [labsL]
          have := ih _ _ hinv (fun hp => by
            rw [put_new ts t (hfresh hp), List.map_append, List.append_assoc]
            have h1 := hnd hp
            rw [List.map_singleton, htp]
            exact h1)
          rw [eraseL_put, ht2] at this
          rw [hr]
          cases hul : unfoldLoop urec rootDict.keys q ms (put (eraseL ts) T) with
          | none =>
            rw [hul] at this
            obtain ⟨e, h2, he⟩ := this
            exact ⟨e, h2, by simp only [he]⟩
          | some acc =>
            rw [hul] at this
            obtain ⟨b2, h2, ts', he, hacc, hinv'⟩ := this
            exact ⟨true, h2, ts', by simp only [he], hacc, hinv'⟩

/-! ### Loading a new document -/

/-- Loading a new document, given what the loop over its includes does. -/
theorem load_new (w : World P) (alive : Nat → Bool) (f : Nat) (h : Heap P) (x : Nat) (q : P) (par : Option Nat)
    (urec : List (Tree P Unit) → P → Option (Tree P Unit)) (rootDict : Dict P Nat)
    (hlen : x < h.docs.length) (hx : h.docs[x]? = some (newDoc w q par))
    (hroot : ∀ incs fl, contents w q = some incs → w q = some fl →
      documentsDict (modify h.docs x fun d => { d with loaded := true, mtime := some fl.mtime, body := true, includes := incs, text := fl.text }) h.root = some rootDict)
    (hpath : ∀ acc m T, urec acc m = some T → T.path = m)
    (hrec : ∀ h0 hh ts m d, h0.root = h.root → h0.docs.length = h.docs.length → (∀ i < x, h0.docs[i]? = h.docs[i]?) →
      LInv w h0 hh x d ts → d.path = q → d.parent = par → d.loaded = true → d.body = true → d.includes = inc w q → d.mtime.isSome →
      m ≠ q → m ∉ rootDict.keys →
      match urec (eraseL ts) m with
      | none => ∃ e h', load w alive f false { hh with docs := hh.docs ++ [newDoc w m (some x)] } hh.docs.length = (.error e, h')
      | some T => ∃ b h', load w alive f false { hh with docs := hh.docs ++ [newDoc w m (some x)] } hh.docs.length = (.ok b, h') ∧
          Made w { hh with docs := hh.docs ++ [newDoc w m (some x)] } h' hh.docs.length (some x) T) :
    match (match contents w q with
      | none => none
      | some incs => (unfoldLoop urec rootDict.keys q incs []).map (Tree.node () q)) with
    | none => ∃ e h', load w alive (f + 1) false h x = (.error e, h')
    | some T => ∃ b h', load w alive (f + 1) false h x = (.ok b, h') ∧ Made w h h' x par T := by
  cases hw : w q with
  | none =>
    have hc : contents w q = none := by unfold contents; rw [hw]
    rw [hc]
    exact ⟨.missing, h, by simp only [load, hx, newDoc, hw]⟩
  | some fl =>
    have hreq : loadRequired alive h.docs (newDoc w q par) fl.mtime = true := by simp [loadRequired, newDoc]
    have hnp : (newDoc w q par).path = q := rfl
    cases hs : fl.sizeOk with
    | false =>
      have hc : contents w q = none := by unfold contents; rw [hw]; simp [hs]
      rw [hc]
      exact ⟨.tooLarge, _, by simp only [load, hx, hnp, hw, hreq, onload, hs]; rfl⟩
    | true =>
      cases hi : fl.includes with
      | none =>
        have hc : contents w q = none := by unfold contents; rw [hw]; simp [hs, hi]
        rw [hc]
        exact ⟨.onload, _, by simp only [load, hx, hnp, hw, hreq, onload, hs, hi]; rfl⟩
      | some incs =>
        have hc : contents w q = some incs := by unfold contents; rw [hw]; simp [hs, hi]
        rw [hc]
        have hinc : inc w q = incs := by unfold inc; rw [hc]; rfl
        let d : Doc P := { newDoc w q par with loaded := true, mtime := some fl.mtime, body := true, includes := incs, text := fl.text }
        let docs1 := modify h.docs x fun d => { d with loaded := true, mtime := some fl.mtime, body := true, includes := incs, text := fl.text }
        have hd1 : docs1[x]? = some d := by
          show (modify _ _ _)[x]? = _
          rw [modify_get, if_pos rfl, hx]; rfl
        have hlen1 : docs1.length = h.docs.length := modify_length _ _ _
        have hsub : documentsDict docs1 x = some [(q, x)] := by
          unfold documentsDict docsDict
          rw [hd1]; rfl
        have hrt := hroot incs fl hc hw
        let h0 : Heap P := { docs := modify docs1 x fun d => { d with subs := [] }, root := h.root, loads := h.loads ++ [x] }
        have hlinv : LInv w h0 h0 x d [] := by
          refine ⟨rfl, Nat.le_refl _, fun _ _ => rfl, ?_, trivial, trivial, by simp [labsL], by simp [labsL], ⟨[], by simp, by simp [labsL], fun _ => rfl⟩⟩
          show (modify _ _ _)[x]? = _
          rw [modify_get, if_pos rfl, hd1]; rfl
        have hloop := subsLoop_new w (load w alive f false) urec h0 x q d rootDict hpath (fun hh ts m hl => 
          hrec h0 hh ts m d rfl (by show (modify _ _ _).length = _; rw [modify_length, hlen1])
            (fun i hix => by
              show (modify _ _ _)[i]? = _
              rw [modify_get, if_neg (by omega)]
              show (modify _ _ _)[i]? = _
              rw [modify_get, if_neg (by omega)]) hl rfl rfl rfl rfl hinc.symm rfl) incs h0 [] hlinv
          (fun hp => by have := hp q; rw [hinc] at this; exact this)
        have hload : load w alive (f + 1) false h x =
            match subsLoop w (load w alive f false) x q [(q, x)] rootDict incs h0 with
            | (.error e, h) => (.error e, h)
            | (.ok b, h) => (.ok true, { h with docs := updateMtime (h.docs.length + 1) ((h.docs[x]?).bind (·.mtime)) h.docs x }) := by
          have e1 : onload h x fl = (.ok (), { h with docs := docs1, loads := h.loads ++ [x] }) := by
            simp only [onload, hs, hi]; rfl
          simp only [load, hx, hnp, hw, hreq, e1, Bool.true_or, if_true]
          simp only [loadSubs, hd1]
          rw [show documentsDict docs1 h.root = some rootDict from hrt, hsub]
          simp only [d, newDoc]
          rw [show (Heap.mk (modify docs1 x fun d => { d with subs := [] }) h.root (h.loads ++ [x]) : Heap P) = h0 from rfl]
          rcases subsLoop w (load w alive f false) x q [(q, x)] rootDict incs h0 with ⟨e | b, h2⟩ <;> rfl
        simp only [eraseL] at hloop
        cases hu : unfoldLoop urec rootDict.keys q incs [] with
        | none =>
          rw [hu] at hloop
          obtain ⟨e, h', he⟩ := hloop
          simp only [hu, Option.map_none]
          exact ⟨e, h', by rw [hload, he]⟩
        | some acc =>
          rw [hu] at hloop
          obtain ⟨b, h', ts, he, hacc, hinv⟩ := hloop
          simp only [hu, Option.map_some]
          rw [hload, he]
          refine ⟨true, _, rfl, ?_⟩
          have hmt : (h'.docs[x]?).bind (·.mtime) = some fl.mtime := by rw [hinv.self]; rfl
          rw [hmt]
          let t : Tree P Nat := .node x q ts
          have hrep : Rep (inc w) h'.docs t par := by
            simp only [t, Rep]
            exact ⟨⟨_, hinv.self, rfl, rfl, rfl, rfl, rfl, hinc.symm, rfl⟩, hinv.rep⟩
          have hnd : t.labs.Nodup := by
            simp only [t, Tree.labs, List.nodup_cons]
            exact ⟨fun hm => Nat.lt_irrefl _ (hinv.above x hm), hinv.nodup⟩
          have hdepth : t.depth ≤ h'.docs.length + 1 := by
            have h1 := depth_le t
            have h2 := length_le_of_nodup h'.docs.length t.labs hnd (rep_lt t par hrep)
            omega
          have hr : Raised fl.mtime h'.docs (updateMtime (h'.docs.length + 1) (some fl.mtime) h'.docs x) t.labs :=
            updateMtime_rep t par (h'.docs.length + 1) fl.mtime h'.docs hrep hnd hdepth
          have habove : ∀ i ∈ t.labs, x ≤ i := by
            intro i hm
            rcases List.mem_cons.1 hm with rfl | hm
            · exact Nat.le_refl _
            · exact Nat.le_of_lt (hinv.above i hm)
          refine ⟨t, rfl, ?_, rep_later t par hrep hr.later, ?_, hnd, habove, hinv.root, ?_, ?_, ?_⟩
          · simp only [t, Tree.erase, hacc]
          · simp only [t, Timed]
            refine ⟨fl.mtime, ?_, Nat.zero_le _, fun g hg => ?_, ?_⟩
            · unfold timeOf
              rw [hr x, if_pos (by simp [t, Tree.labs]), hinv.self]
              simp [raise, d]
            · rw [hw] at hg
              obtain rfl := Option.some.inj hg
              exact Nat.le_refl _
            · exact timedL_mono ts _ fl.mtime (by omega) (timedL_raised hr ts 0 (fun i hi => by simp [t, Tree.labs, hi]) hinv.timed)
          · show _ ≤ (updateMtime _ _ _ _).length
            rw [updateMtime_length]
            have := hinv.len
            have h3 : h0.docs.length = h.docs.length := by
              show (modify _ _ _).length = _
              rw [modify_length, hlen1]
            omega
          · intro i hix
            show (updateMtime _ _ _ _)[i]? = _
            rw [hr i, if_neg (fun hm => by have := habove i hm; omega), hinv.same i hix]
            show (modify _ _ _)[i]? = _
            rw [modify_get, if_neg (by omega)]
            show (modify _ _ _)[i]? = _
            rw [modify_get, if_neg (by omega)]
          · obtain ⟨l, hl1, hl2, hl3⟩ := hinv.loads
            refine ⟨x :: l, ?_, ?_, fun hp => by rw [hl3 hp]; rfl⟩
            · show h'.loads = _
              rw [hl1]
              show (h.loads ++ [x]) ++ l = _
              simp
            · intro i hm
              rcases List.mem_cons.1 hm with rfl | hm
              · simp
              · simp [hl2 i hm]

theorem load_nested (w : World P) (alive : Nat → Bool) (tr : Tree P Nat) : ∀ (f : Nat) (q : P) (h : Heap P) (x : Nat) (par : Option Nat),
    h.docs.length = x + 1 → h.docs[x]? = some (newDoc w q par) → Rep (inc w) h.docs tr none → tr.labs.Nodup → (∀ i ∈ tr.labs, i < x) →
    h.root = tr.lab →
    match unfold w tr.keys f q with
    | none => ∃ e h', load w alive f false h x = (.error e, h')
    | some T => ∃ b h', load w alive f false h x = (.ok b, h') ∧ Made w h h' x par T := by
  intro f
  induction f with
  | zero =>
    intro q h x par _ _ _ _ _ _
    exact ⟨.recursion, h, rfl⟩
  | succ f ih =>
    intro q h x par hlen hx hrep hnd hlt hroot
    have hrd : ∃ rootDict : Dict P Nat, rootDict.keys = tr.keys ∧ ∀ incs fl, contents w q = some incs → w q = some fl →
        documentsDict (modify h.docs x fun d => { d with loaded := true, mtime := some fl.mtime, body := true, includes := incs, text := fl.text }) h.root
          = some rootDict := by
      cases hc : contents w q with
      | none => exact ⟨tr.keys.map (·, 0), by simp [Dict.keys, Function.comp_def], by simp⟩
      | some incs =>
        cases hw : w q with
        | none => exact ⟨tr.keys.map (·, 0), by simp [Dict.keys, Function.comp_def], by simp⟩
        | some fl =>
          have hrep' : Rep (inc w) (modify h.docs x fun d => { d with loaded := true, mtime := some fl.mtime, body := true, includes := incs, text := fl.text }) tr none := by
            refine rep_later tr none hrep (later_of_eq fun i hi => ?_)
            rw [modify_get, if_neg (by have := hlt i hi; omega)]
          obtain ⟨d, hd, hk, _⟩ := documentsDict_rep tr none hrep' hnd
          refine ⟨d, hk, fun incs' fl' h1 h2 => ?_⟩
          obtain rfl := Option.some.inj h1
          obtain rfl := Option.some.inj h2
          rw [hroot]; exact hd
    obtain ⟨rootDict, hk, hrd⟩ := hrd
    have := load_new w alive f h x q par (fun _ m => unfold w tr.keys f m) rootDict (by omega) hx hrd
      (fun _ m T hT => unfold_path w _ f m T hT) (by
        intro h0 hh ts m d hr0 hl0 hs0 hl _ _ _ _ _ _ hmq hmr
        have hxlt : x < hh.docs.length := (List.getElem?_eq_some_iff.1 hl.self).1
        refine ih m _ hh.docs.length (some x) (by simp) (by simp) ?_ hnd (fun i hi => by have := hlt i hi; omega) ?_
        · refine rep_later tr none hrep (later_of_eq fun i hi => ?_)
          have hix := hlt i hi
          show (hh.docs ++ _)[i]? = _
          rw [List.getElem?_append_left (by omega), hl.same i hix, hs0 i hix]
        · show hh.root = _
          rw [hl.root, hr0, hroot])
    rw [hk] at this
    simp only [unfold]
    exact this

/-- Creating a root document. -/
theorem create_spec (w : World P) (alive : Nat → Bool) (f : Nat) (root : P) :
    match unfoldRoot w f root with
    | none => ∃ e h', create w alive f root = (.error e, h')
    | some T => ∃ b h', create w alive f root = (.ok b, h') ∧
        Made w { docs := [newDoc w root none], root := 0, loads := [] } h' 0 none T := by
  cases f with
  | zero => exact ⟨.recursion, _, rfl⟩
  | succ f =>
    have := load_new w alive f { docs := [newDoc w root none], root := 0, loads := [] } 0 root none
      (fun acc m => unfold w (Tree.keys (.node () root acc)) f m) [(root, 0)] (by simp) rfl
      (by intro incs fl _ _; rfl)
      (fun _ m T hT => unfold_path w _ f m T hT) (by
        intro h0 hh ts m d hr0 hl0 hs0 hl hd1 hd2 hd3 hd4 hd5 hd6 hmq hmr
        have hxlt : 0 < hh.docs.length := (List.getElem?_eq_some_iff.1 hl.self).1
        have hrep : Rep (inc w) hh.docs (.node 0 root ts) none := by
          simp only [Rep]
          exact ⟨⟨_, hl.self, hd1, rfl, hd2, hd3, hd4, hd5, hd6⟩, hl.rep⟩
        have hnd : (Tree.node 0 root ts).labs.Nodup := by
          simp only [Tree.labs, List.nodup_cons]
          exact ⟨fun hm => Nat.lt_irrefl _ (hl.above 0 hm), hl.nodup⟩
        have hlt := rep_lt (Tree.node 0 root ts) none hrep
        have := load_nested w alive (.node 0 root ts) f m { hh with docs := hh.docs ++ [newDoc w m (some 0)] } hh.docs.length (some 0) (by simp)
          (by simp) (by
            refine rep_later _ none hrep (later_of_eq fun i hi => ?_)
            show (hh.docs ++ _)[i]? = _
            rw [List.getElem?_append_left (hlt i hi)]) hnd hlt (by show hh.root = 0; rw [hl.root, hr0])
        rw [← keys_erase] at this
        exact this)
    simp only [unfoldRoot]
    exact this

end Verif.Documents
