import Verif.Lemmas.DocumentGraph

/-!
# Loading documents again
-/

namespace Verif.Documents

open Verif Verif.Documents.Spec

variable {P : Type} [DecidableEq P]

/-- The recorded time of a document. -/
def oldTime (docs : List (Doc P)) (x : Nat) : Nat := (timeOf docs x).getD 0

/-- The time of a file. -/
def fileTime (w : World P) (p : P) : Nat := ((w p).map (·.mtime)).getD 0

/-- Whether a document is reloaded, with the time `pm` of its parent. -/
def again (w : World P) (docs : List (Doc P)) (force : Bool) (pm : Option Nat) (x : Nat) (p : P) : Bool :=
  force || decide (oldTime docs x < fileTime w p) || pm.any (fun m => decide (oldTime docs x < m))

/-- The time recorded by `load`, before the times of subdocuments are raised. -/
def newTime (w : World P) (docs : List (Doc P)) (force : Bool) (pm : Option Nat) (x : Nat) (p : P) : Nat :=
  if again w docs force pm x p then fileTime w p else oldTime docs x

/-- The text that a document has after `load`. -/
def newText (w : World P) (docs : List (Doc P)) (force : Bool) (pm : Option Nat) (x : Nat) (p : P) (old : Str) : Str :=
  if again w docs force pm x p then ((w p).map (·.text)).getD [] else old

section
variable (w : World P) (docs : List (Doc P))

mutual
  /-- The documents that are reloaded. -/
  def reloads : Tree P Nat → Bool → Option Nat → List Nat
    | .node x p l, force, pm => (if again w docs force pm x p then [x] else []) ++ reloadsL l (newTime w docs force pm x p)
  def reloadsL : List (Tree P Nat) → Nat → List Nat
    | [], _ => []
    | t :: l, m => reloads t false (some m) ++ reloadsL l m
end

mutual
  /-- The times afterwards, at least `lo`. -/
  def Fin (docs' : List (Doc P)) : Tree P Nat → Bool → Option Nat → Nat → Prop
    | .node x p l, force, pm, lo =>
      docs'[x]? = (docs[x]?).map (fun d => { d with mtime := some (max lo (newTime w docs force pm x p)), text := newText w docs force pm x p d.text }) ∧
      FinL docs' l (newTime w docs force pm x p) (max lo (newTime w docs force pm x p))
  def FinL (docs' : List (Doc P)) : List (Tree P Nat) → Nat → Nat → Prop
    | [], _, _ => True
    | t :: l, m, lo => Fin docs' t false (some m) lo ∧ FinL docs' l m lo
end
end

section
variable {w : World P} {docs docs' docs1 docs1' : List (Doc P)}

theorem finL_iff (l : List (Tree P Nat)) (m lo : Nat) : FinL w docs docs' l m lo ↔ ∀ t ∈ l, Fin w docs docs' t false (some m) lo := by
  induction l with
  | nil => simp [FinL]
  | cons t l ih => simp [FinL, ih]

theorem reloadsL_append (l l' : List (Tree P Nat)) (m : Nat) : reloadsL w docs (l ++ l') m = reloadsL w docs l m ++ reloadsL w docs l' m := by
  induction l with
  | nil => rfl
  | cons t l ih => simp [reloadsL, ih]

theorem timeOf_congr {x : Nat} (h : docs1[x]? = docs[x]?) : timeOf docs1 x = timeOf docs x := by
  unfold timeOf; rw [h]

theorem again_congr {x : Nat} (h : docs1[x]? = docs[x]?) (force : Bool) (pm : Option Nat) (p : P) :
    again w docs1 force pm x p = again w docs force pm x p := by
  unfold again oldTime; rw [timeOf_congr h]

theorem newTime_congr {x : Nat} (h : docs1[x]? = docs[x]?) (force : Bool) (pm : Option Nat) (p : P) :
    newTime w docs1 force pm x p = newTime w docs force pm x p := by
  unfold newTime oldTime; rw [again_congr h, timeOf_congr h]

theorem newText_congr {x : Nat} (h : docs1[x]? = docs[x]?) (force : Bool) (pm : Option Nat) (p : P) :
    newText w docs1 force pm x p = newText w docs force pm x p := by
  funext old
  unfold newText; rw [again_congr h]

mutual
  theorem reloads_congr : ∀ (t : Tree P Nat) (force : Bool) (pm : Option Nat), (∀ i ∈ t.labs, docs1[i]? = docs[i]?) →
      reloads w docs1 t force pm = reloads w docs t force pm
    | .node x p l, force, pm, h => by
      simp only [reloads]
      rw [again_congr (h x (by simp [Tree.labs])), newTime_congr (h x (by simp [Tree.labs])),
        reloadsL_congr l _ fun i hi => h i (by simp [Tree.labs, hi])]
  theorem reloadsL_congr : ∀ (l : List (Tree P Nat)) (m : Nat), (∀ i ∈ labsL l, docs1[i]? = docs[i]?) →
      reloadsL w docs1 l m = reloadsL w docs l m
    | [], _, _ => rfl
    | t :: l, m, h => by
      simp only [reloadsL]
      rw [reloads_congr t _ _ fun i hi => h i (by simp [labsL, hi]), reloadsL_congr l m fun i hi => h i (by simp [labsL, hi])]
end

mutual
  theorem fin_congr : ∀ (t : Tree P Nat) (force : Bool) (pm : Option Nat) (lo : Nat), (∀ i ∈ t.labs, docs1[i]? = docs[i]?) →
      (∀ i ∈ t.labs, docs1'[i]? = docs'[i]?) → Fin w docs docs' t force pm lo → Fin w docs1 docs1' t force pm lo
    | .node x p l, force, pm, lo, h, h', hf => by
      simp only [Fin] at hf ⊢
      have hx := h x (by simp [Tree.labs])
      rw [newTime_congr hx, newText_congr hx, hx, h' x (by simp [Tree.labs])]
      exact ⟨hf.1, finL_congr l _ _ (fun i hi => h i (by simp [Tree.labs, hi])) (fun i hi => h' i (by simp [Tree.labs, hi])) hf.2⟩
  theorem finL_congr : ∀ (l : List (Tree P Nat)) (m lo : Nat), (∀ i ∈ labsL l, docs1[i]? = docs[i]?) →
      (∀ i ∈ labsL l, docs1'[i]? = docs'[i]?) → FinL w docs docs' l m lo → FinL w docs1 docs1' l m lo
    | [], _, _, _, _, _ => trivial
    | t :: l, m, lo, h, h', hf => by
      simp only [FinL] at hf ⊢
      exact ⟨fin_congr t _ _ _ (fun i hi => h i (by simp [labsL, hi])) (fun i hi => h' i (by simp [labsL, hi])) hf.1,
        finL_congr l _ _ (fun i hi => h i (by simp [labsL, hi])) (fun i hi => h' i (by simp [labsL, hi])) hf.2⟩
end

mutual
  theorem fin_raised {m : Nat} {S : List Nat} {docs'' : List (Doc P)} (hr : Raised m docs' docs'' S) : ∀ (t : Tree P Nat) (force : Bool)
      (pm : Option Nat) (lo : Nat), (∀ i ∈ t.labs, i ∈ S) → Fin w docs docs' t force pm lo → Fin w docs docs'' t force pm (max m lo)
    | .node x p l, force, pm, lo, hs, hf => by
      simp only [Fin] at hf ⊢
      refine ⟨?_, ?_⟩
      · rw [hr x, if_pos (hs x (by simp [Tree.labs])), hf.1]
        cases docs[x]? with
        | none => rfl
        | some d => simp [raise, Nat.max_assoc]
      · have := finL_raised hr l _ _ (fun i hi => hs i (by simp [Tree.labs, hi])) hf.2
        rw [← Nat.max_assoc] at this
        exact this
  theorem finL_raised {m : Nat} {S : List Nat} {docs'' : List (Doc P)} (hr : Raised m docs' docs'' S) : ∀ (l : List (Tree P Nat)) (m' lo : Nat),
      (∀ i ∈ labsL l, i ∈ S) → FinL w docs docs' l m' lo → FinL w docs docs'' l m' (max m lo)
    | [], _, _, _, _ => trivial
    | t :: l, m', lo, hs, hf => by
      simp only [FinL] at hf ⊢
      exact ⟨fin_raised hr t _ _ _ (fun i hi => hs i (by simp [labsL, hi])) hf.1, finL_raised hr l _ _ (fun i hi => hs i (by simp [labsL, hi])) hf.2⟩
end

mutual
  theorem fin_later : ∀ (t : Tree P Nat) (force : Bool) (pm : Option Nat) (lo : Nat), Fin w docs docs' t force pm lo → Later docs docs' t.labs
    | .node x p l, force, pm, lo, hf => by
      simp only [Fin] at hf
      intro i hi d hd hm
      rcases List.mem_cons.1 hi with rfl | hi
      · rw [hd] at hf
        exact ⟨_, _, hf.1⟩
      · exact finL_later l _ _ hf.2 i hi d hd hm
  theorem finL_later : ∀ (l : List (Tree P Nat)) (m lo : Nat), FinL w docs docs' l m lo → Later docs docs' (labsL l)
    | [], _, _, _ => by intro i hi; simp [labsL] at hi
    | t :: l, m, lo, hf => by
      simp only [FinL] at hf
      intro i hi d hd hm
      rcases List.mem_append.1 hi with hi | hi
      · exact fin_later t _ _ _ hf.1 i hi d hd hm
      · exact finL_later l _ _ hf.2 i hi d hd hm
end
end

/-- The effect of loading the documents of a tree again. -/
structure Kept (w : World P) (h h' : Heap P) (t : Tree P Nat) (force : Bool) (pm : Option Nat) : Prop where
  root : h'.root = h.root
  len : h'.docs.length = h.docs.length
  out : ∀ i, i ∉ t.labs → h'.docs[i]? = h.docs[i]?
  fin : Fin w h.docs h'.docs t force pm 0
  loads : h'.loads = h.loads ++ reloads w h.docs t force pm

/-- The state of the loop over the includes of a known document, when the subdocuments `acc` are done. -/
structure OInv (w : World P) (D : List (Doc P)) (R : Nat) (L0 : List Nat) (x : Nat) (d : Doc P) (m : Nat) (h : Heap P) (acc : List (Tree P Nat)) : Prop where
  root : h.root = R
  len : h.docs.length = D.length
  self : h.docs[x]? = some { d with subs := entries acc }
  out : ∀ i, i ∉ x :: labsL acc → h.docs[i]? = D[i]?
  fin : FinL w D h.docs acc m 0
  loads : h.loads = L0 ++ reloadsL w D acc m

theorem fin_get {w : World P} {docs docs' : List (Doc P)} (t : Tree P Nat) (force : Bool) (pm : Option Nat) (lo : Nat) (h : Fin w docs docs' t force pm lo) :
    ∃ v, ∃ tx : Str → Str, docs'[t.lab]? = (docs[t.lab]?).map (fun d => { d with mtime := some v, text := tx d.text }) := by
  cases t with
  | node x p l => exact ⟨_, _, h.1⟩

theorem subsLoop_old (w : World P) (rec : Heap P → Nat → Except Err Bool × Heap P) (root : P) (D : List (Doc P)) (R : Nat) (L0 : List Nat)
    (x : Nat) (q : P) (d : Doc P) (m : Nat) (l : List (Tree P Nat)) (subsDict rootDict : Dict P Nat)
    (hnd : (x :: labsL l).Nodup) (hpn : (l.map Tree.path).Nodup)
    (hget : ∀ t ∈ l, subsDict.get? t.path = some t.lab)
    (hroot : q ≠ root → subsDict.get? root = none ∧ rootDict.has root = true)
    (hno : ∀ t ∈ l, ∀ d, D[t.lab]? = some d → d.subs.has q = false)
    (hrec : ∀ acc t1 rest h, l = acc ++ t1 :: rest → OInv w D R L0 x d m h acc → ∃ b h', rec h t1.lab = (.ok b, h') ∧
      Kept w h h' t1 false (some m) ∧ (b = true ↔ reloads w D t1 false (some m) ≠ [])) :
    ∀ (ms : List P) (acc rest : List (Tree P Nat)) (h : Heap P), l = acc ++ rest →
      ms.filter (fun m => decide (m ≠ q) && decide (m ≠ root)) = rest.map Tree.path → OInv w D R L0 x d m h acc →
      ∃ b h', subsLoop w rec x q subsDict rootDict ms h = (.ok b, h') ∧ OInv w D R L0 x d m h' l ∧ (b = true ↔ reloadsL w D rest m ≠ []) := by
  intro ms
  induction ms with
  | nil =>
    intro acc rest h hl hf hi
    have : rest = [] := by simpa using hf.symm
    subst this
    rw [List.append_nil] at hl
    exact ⟨false, h, rfl, hl ▸ hi, by simp [reloadsL]⟩
  | cons a ms ih =>
    intro acc rest h hl hf hi
    by_cases haq : a = q
    · simp only [subsLoop, if_pos haq]
      refine ih acc rest h hl ?_ hi
      rw [List.filter_cons_of_neg (by simp [haq])] at hf
      exact hf
    · by_cases har : a = root
      · have hqr : q ≠ root := fun e => haq (har.trans e.symm)
        obtain ⟨h1, h2⟩ := hroot hqr
        simp only [subsLoop, if_neg haq]
        rw [har, h1]
        simp only [if_pos h2]
        refine ih acc rest h hl ?_ hi
        rw [List.filter_cons_of_neg (by simp [har])] at hf
        exact hf
      · rw [List.filter_cons_of_pos (by simp [haq, har])] at hf
        cases rest with
        | nil => simp at hf
        | cons t1 rest =>
          rw [List.map_cons, List.cons.injEq] at hf
          obtain ⟨hat, hf⟩ := hf
          have ht1 : t1 ∈ l := by rw [hl]; simp
          obtain ⟨b, h', hr, hk, hb⟩ := hrec acc t1 rest h hl hi
          have hlabs : (x :: (labsL acc ++ (t1.labs ++ labsL rest))).Nodup := by
            rw [hl, labsL_append] at hnd
            simpa [labsL] using hnd
          have hx1 : x ∉ t1.labs := fun hm => (List.nodup_cons.1 hlabs).1 (by simp [hm])
          have hacc1 : ∀ i ∈ labsL acc, i ∉ t1.labs := fun i hi hm => by
            have := (List.nodup_append.1 (List.nodup_cons.1 hlabs).2).2.2 i hi i (by simp [hm])
            exact this rfl
          have hxacc : x ∉ labsL acc := fun hm => (List.nodup_cons.1 hlabs).1 (by simp [hm])
          have h1D : ∀ i ∈ t1.labs, h.docs[i]? = D[i]? := fun i him => hi.out i (by
            intro hm
            rcases List.mem_cons.1 hm with rfl | hm
            · exact hx1 him
            · exact hacc1 i hm him)
          have hhas : ∀ d, h'.docs[t1.lab]? = some d → d.subs.has q = false := by
            intro d' hd'
            obtain ⟨v, _, hv⟩ := fin_get t1 _ _ _ hk.fin
            rw [hv, h1D _ (lab_mem t1)] at hd'
            cases hd : D[t1.lab]? with
            | none => rw [hd] at hd'; simp at hd'
            | some d =>
              rw [hd] at hd'
              obtain rfl := Option.some.inj hd'
              exact hno t1 ht1 d hd
          have hpath : a ∉ acc.map Tree.path := by
            rw [hl, List.map_append, List.map_cons, ← hat] at hpn
            exact fun hm => (List.nodup_append.1 hpn).2.2 a hm a (by simp) rfl
          have hinv : OInv w D R L0 x d m { h' with docs := modify h'.docs x fun d => { d with subs := d.subs.set a t1.lab } } (acc ++ [t1]) := by
            have hmod : ∀ i, i ≠ x → (modify h'.docs x fun d => { d with subs := d.subs.set a t1.lab })[i]? = h'.docs[i]? := by
              intro i hne
              rw [modify_get, if_neg hne]
            refine ⟨hk.root.trans hi.root, ?_, ?_, ?_, ?_, ?_⟩
            · simp only [modify_length]; rw [hk.len, hi.len]
            · show (modify _ _ _)[x]? = _
              rw [modify_get, if_pos rfl, hk.out x hx1, hi.self]
              simp only [Option.map_some]
              rw [← put_new acc t1 (hat ▸ hpath), entries_put, ← hat]
            · intro i him
              have hxi : i ≠ x := fun e => him (by simp [e])
              have hi1 : i ∉ t1.labs := fun e => him (by simp [labsL_append, labsL, e])
              have hia : i ∉ labsL acc := fun e => him (by simp [labsL_append, e])
              show (modify _ _ _)[i]? = _
              rw [hmod i hxi, hk.out i hi1, hi.out i (by simp [hxi, hia])]
            · rw [finL_iff]
              intro t ht
              rcases List.mem_append.1 ht with ht | ht
              · refine fin_congr t _ _ _ (fun _ _ => rfl) (fun i him => ?_) ((finL_iff _ _ _).1 hi.fin t ht)
                have hiacc : i ∈ labsL acc := (mem_labsL _ _).2 ⟨t, ht, him⟩
                show (modify _ _ _)[i]? = _
                rw [hmod i (fun e => hxacc (e ▸ hiacc)), hk.out i (hacc1 i hiacc)]
              · rw [List.mem_singleton.1 ht]
                refine fin_congr t1 _ _ _ (fun i him => (h1D i him).symm) (fun i him => ?_) hk.fin
                exact hmod i (fun e => hx1 (e ▸ him))
            · show h'.loads = _
              rw [hk.loads, hi.loads, reloadsL_append, reloads_congr t1 _ _ h1D]
              simp [reloadsL]
          obtain ⟨b', h2, he, hinv', hb'⟩ := ih (acc ++ [t1]) rest _ (by rw [hl]; simp) hf hinv
          refine ⟨b || b', h2, ?_, hinv', ?_⟩
          · simp only [subsLoop, if_neg haq]
            rw [hat, hget t1 ht1]
            rw [hat] at he
            cases hd' : h'.docs[t1.lab]? with
            | none => simp only [hr, hd', Bool.false_eq_true, if_false, he]
            | some d' => simp only [hr, hd', hhas d' hd', Bool.false_eq_true, if_false, he]
          · rw [Bool.or_eq_true, hb, hb']
            simp only [reloadsL, ne_eq, List.append_eq_nil_iff, not_and_or]

/-- The children of a document are the files it includes, but for itself and the root. -/
def shapeAt {A : Type} (w : World P) (root q : P) (l : List (Tree P A)) : Prop :=
  l.map Tree.path = (inc w q).filter (fun m => decide (m ≠ q) && decide (m ≠ root))

theorem pairs_paths {A : Type} (t : Tree P A) : t.pairs.map (·.1) = t.paths := by
  have : (∀ t : Tree P A, t.pairs.map (·.1) = t.paths) ∧ (∀ l : List (Tree P A), (pairsL l).map (·.1) = pathsL l) := by
    constructor
    · exact fun t => pairs_paths_aux t
    · exact fun l => pairsL_paths_aux l
  exact this.1 t
where
  pairs_paths_aux : ∀ t : Tree P A, t.pairs.map (·.1) = t.paths
    | .node a p l => by simp only [Tree.pairs, Tree.paths, List.map_cons]; rw [pairsL_paths_aux l]
  pairsL_paths_aux : ∀ l : List (Tree P A), (pairsL l).map (·.1) = pathsL l
    | [] => rfl
    | t :: l => by simp only [pairsL, pathsL, List.map_append]; rw [pairs_paths_aux t, pairsL_paths_aux l]

theorem load_old (w : World P) (f : Nat) (root : P) (h : Heap P) (x : Nat) (q : P) (l : List (Tree P Nat)) (par : Option Nat) (force : Bool)
    (pm : Option Nat)
    (hrep : Rep (inc w) h.docs (.node x q l) par) (hnd : (Tree.node x q l).labs.Nodup) (hpn : (Tree.node x q l).paths.Nodup)
    (hshape : shapeAt w root q l) (hroot : q ≠ root → root ∉ (Tree.node x q l).paths) (hc : (contents w q).isSome)
    (hpm : pm = par.bind (timeOf h.docs))
    (hrd : ∀ docs1, docs1.length = h.docs.length → (∀ i, i ≠ x → docs1[i]? = h.docs[i]?) → Rep (inc w) docs1 (.node x q l) par →
      ∃ rootDict, documentsDict docs1 h.root = some rootDict ∧ (q ≠ root → root ∈ rootDict.keys))
    (hrec : ∀ acc t1 rest hh L0 d, l = acc ++ t1 :: rest → Rep (inc w) hh.docs (.node x q acc) par →
      OInv w h.docs h.root L0 x d (newTime w h.docs force pm x q) hh acc → d.mtime = some (newTime w h.docs force pm x q) →
      ∃ b h', load w (fun _ => true) f false hh t1.lab = (.ok b, h') ∧
        Kept w hh h' t1 false (some (newTime w h.docs force pm x q)) ∧
        (b = true ↔ reloads w h.docs t1 false (some (newTime w h.docs force pm x q)) ≠ [])) :
    ∃ b h', load w (fun _ => true) (f + 1) force h x = (.ok b, h') ∧ Kept w h h' (.node x q l) force pm ∧
      (b = true ↔ reloads w h.docs (.node x q l) force pm ≠ []) := by
  have hrep' := hrep
  simp only [Rep] at hrep'
  obtain ⟨⟨d, hd, hdp, hds, hdpar, hdl, hdb, hdi, hdm⟩, hrl⟩ := hrep'
  obtain ⟨old, hold⟩ := Option.isSome_iff_exists.1 hdm
  have holdT : oldTime h.docs x = old := by simp [oldTime, timeOf, hd, hold]
  obtain ⟨incs, hc⟩ := Option.isSome_iff_exists.1 hc
  have hinc : inc w q = incs := by unfold inc; rw [hc]; rfl
  obtain ⟨fl, hw, hsz, hfi⟩ : ∃ fl, w q = some fl ∧ fl.sizeOk = true ∧ fl.includes = some incs := by
    unfold contents at hc
    split at hc
    · rename_i fl hw
      split at hc
      · exact ⟨fl, hw, by assumption, hc⟩
      · simp at hc
    · simp at hc
  have hft : fileTime w q = fl.mtime := by simp [fileTime, hw]
  have hreq : (loadRequired (fun _ => true) h.docs d fl.mtime || force) = again w h.docs force pm x q := by
    simp only [loadRequired, hdl, hdb, hold, hdpar, again, holdT, hft, hpm, timeOf]
    cases par with
    | none => by_cases h1 : old < fl.mtime <;> simp [h1, Bool.or_comm]
    | some p =>
      by_cases h1 : old < fl.mtime
      · simp [h1]
      · cases h2 : (h.docs[p]?).bind (·.mtime) with
        | none => simp [h1, h2, show timeOf h.docs p = none from h2]
        | some v => simp [h1, h2, show timeOf h.docs p = some v from h2, Bool.or_comm]
  -- the heap after the text is loaded
  let mt := newTime w h.docs force pm x q
  let d1 : Doc P := { d with mtime := some mt, text := newText w h.docs force pm x q d.text }
  have hstart : ∃ h1 : Heap P, h1.root = h.root ∧ h1.docs[x]? = some d1 ∧ (∀ i, i ≠ x → h1.docs[i]? = h.docs[i]?) ∧ h1.docs.length = h.docs.length ∧
      h1.loads = h.loads ++ (if again w h.docs force pm x q then [x] else []) ∧
      load w (fun _ => true) (f + 1) force h x = match loadSubs w (load w (fun _ => true) f false) h1 x with
        | (.error e, h2) => (.error e, h2)
        | (.ok b, h2) => (.ok (again w h.docs force pm x q || b), h2) := by
    cases hag : again w h.docs force pm x q with
    | true =>
      have hmt : mt = fl.mtime := by simp only [mt, newTime, hag, if_true, hft]
      have e1 : onload h x fl = (.ok (), { h with
          docs := modify h.docs x fun d => { d with loaded := true, mtime := some fl.mtime, body := true, includes := incs, text := fl.text }
          loads := h.loads ++ [x] }) := by
        simp only [onload, hsz, hfi]; rfl
      refine ⟨{ h with
          docs := modify h.docs x fun d => { d with loaded := true, mtime := some fl.mtime, body := true, includes := incs, text := fl.text }
          loads := h.loads ++ [x] }, rfl, ?_, ?_, modify_length _ _ _, by simp, ?_⟩
      · show (modify _ _ _)[x]? = _
        rw [modify_get, if_pos rfl, hd, Option.map_some]
        have htx : newText w h.docs force pm x q d.text = fl.text := by simp only [newText, hag, if_true, hw]; rfl
        simp only [d1, hmt, hdl, hinc, hdi, hdb, htx]
      · intro i hne
        show (modify _ _ _)[i]? = _
        rw [modify_get, if_neg hne]
      · simp only [load, hd, hdp, hw, hreq, hag, if_true, e1]
        rcases loadSubs w (load w (fun _ => true) f false) _ x with ⟨e | b, h2⟩ <;> rfl
    | false =>
      have hmt : mt = old := by simp only [mt, newTime, hag, holdT]; rfl
      refine ⟨h, rfl, ?_, fun _ _ => rfl, rfl, by simp, ?_⟩
      · have htx : newText w h.docs force pm x q d.text = d.text := by simp only [newText, hag]; rfl
        rw [hd]; simp only [d1, hmt, ← hold, htx]
      · simp only [load, hd, hdp, hw, hreq, hag, Bool.false_eq_true, if_false]
        rcases loadSubs w (load w (fun _ => true) f false) h x with ⟨e | b, h2⟩ <;> rfl
  obtain ⟨h1, h1r, h1x, h1o, h1l, h1s, hload⟩ := hstart
  have hnotin : ∀ i ∈ labsL l, i ≠ x := fun i hi e => (List.nodup_cons.1 hnd).1 (e ▸ hi)
  have hrep1 : Rep (inc w) h1.docs (.node x q l) par := by
    simp only [Rep]
    refine ⟨⟨d1, h1x, hdp, hds, hdpar, hdl, hdb, hdi, rfl⟩, ?_⟩
    exact repL_later l x hrl (later_of_eq fun i hi => h1o i (hnotin i hi))
  obtain ⟨rootDict, hrd1, hrd2⟩ := hrd h1.docs h1l h1o hrep1
  obtain ⟨sd, hsd1, _, hsd3⟩ := documentsDict_rep _ par hrep1 hnd
  have hsd : sd = (Tree.node x q l).pairs := hsd3 (by rw [pairs_paths]; exact hpn)
  have hpairs : ∀ t ∈ l, (t.path, t.lab) ∈ (Tree.node x q l).pairs := by
    intro t ht
    have : ∀ l : List (Tree P Nat), t ∈ l → (t.path, t.lab) ∈ pairsL l := by
      intro l
      induction l with
      | nil => intro h; simp at h
      | cons s l ih =>
        intro h
        simp only [pairsL, List.mem_append]
        rcases List.mem_cons.1 h with rfl | h
        · left; cases t with
          | node a p l => simp [Tree.pairs, Tree.path, Tree.lab]
        · exact Or.inr (ih h)
    simp only [Tree.pairs]
    exact List.mem_cons_of_mem _ (this l ht)
  have hkeys : sd.keys = (Tree.node x q l).paths := by rw [hsd]; exact pairs_paths _
  have hsubl : ∀ t ∈ l, ∀ k ∈ t.paths, k ∈ pathsL l := fun t ht k hk => (mem_pathsL _ _).2 ⟨t, ht, hk⟩
  let h2 : Heap P := { h1 with docs := modify h1.docs x fun d => { d with subs := [] } }
  have hinv : OInv w h.docs h.root (h.loads ++ (if again w h.docs force pm x q then [x] else [])) x d1 mt h2 [] := by
    refine ⟨h1r, ?_, ?_, ?_, trivial, ?_⟩
    · show (modify _ _ _).length = _
      rw [modify_length, h1l]
    · show (modify _ _ _)[x]? = _
      rw [modify_get, if_pos rfl, h1x]; rfl
    · intro i hi
      have hix : i ≠ x := fun e => hi (by simp [e])
      show (modify _ _ _)[i]? = _
      rw [modify_get, if_neg hix, h1o i hix]
    · show h1.loads = _
      rw [h1s]; simp [reloadsL]
  have hmemq : ∀ t : Tree P Nat, t.path ∈ t.paths := by
    intro t; cases t with
    | node a p l => simp [Tree.path, Tree.paths]
  have hpl : (l.map Tree.path).Nodup := by
    have : ∀ l : List (Tree P Nat), (pathsL l).Nodup → (l.map Tree.path).Nodup := by
      intro l
      induction l with
      | nil => simp
      | cons t l ih =>
        intro h
        simp only [pathsL, List.nodup_append] at h
        rw [List.map_cons, List.nodup_cons]
        refine ⟨fun hm => ?_, ih h.2.1⟩
        obtain ⟨s, hs, hsp⟩ := List.mem_map.1 hm
        exact h.2.2 t.path (hmemq t) t.path ((mem_pathsL _ _).2 ⟨s, hs, hsp ▸ hmemq s⟩) rfl
    exact this l (List.nodup_cons.1 hpn).2
  obtain ⟨b, h3, hloop, hinv3, hb⟩ := subsLoop_old w (load w (fun _ => true) f false) root h.docs h.root
    (h.loads ++ (if again w h.docs force pm x q then [x] else [])) x q d1 mt l sd rootDict hnd hpl
    (fun t ht => Dict.get?_of_mem _ (by rw [hkeys]; exact hpn) _ _ (by rw [hsd]; exact hpairs t ht))
    (fun hne => ⟨(Dict.get?_eq_none_iff _ _).2 (by rw [hkeys]; exact hroot hne), (Dict.has_iff _ _).2 (hrd2 hne)⟩)
    (fun t ht d' hd' => by
      cases hh : d'.subs.has q with
      | false => rfl
      | true =>
        exfalso
        have hk := (Dict.has_iff _ _).1 hh
        have ht' := (repL_iff _ _ _ _).1 hrl t ht
        cases t with
        | node a p lt =>
          simp only [Rep] at ht'
          obtain ⟨⟨d2, hd2, _, hs2, _⟩, _⟩ := ht'
          rw [show (Tree.node a p lt).lab = a from rfl, hd2] at hd'
          obtain rfl := Option.some.inj hd'
          rw [hs2] at hk
          simp only [entries, Dict.keys, List.map_map, List.mem_map, Function.comp_apply] at hk
          obtain ⟨s, hs, hsq⟩ := hk
          have : q ∈ pathsL l := hsubl _ ht q (by
            simp only [Tree.paths]
            exact List.mem_cons_of_mem _ ((mem_pathsL _ _).2 ⟨s, hs, hsq ▸ hmemq s⟩))
          exact (List.nodup_cons.1 hpn).1 this)
    (fun acc t1 rest hh hl hi => by
      refine hrec acc t1 rest hh _ d1 hl ?_ hi rfl
      simp only [Rep]
      refine ⟨⟨_, hi.self, hdp, rfl, hdpar, hdl, hdb, hdi, rfl⟩, ?_⟩
      refine repL_later acc x ?_ (finL_later acc _ _ hi.fin)
      rw [repL_iff]
      intro t ht
      exact (repL_iff _ _ _ _).1 hrl t (by rw [hl]; simp [ht]))
    incs [] l h2 rfl (by rw [← hinc]; exact hshape.symm) hinv
  have hsubs : loadSubs w (load w (fun _ => true) f false) h1 x =
      (.ok b, { h3 with docs := updateMtime (h3.docs.length + 1) ((h3.docs[x]?).bind (·.mtime)) h3.docs x }) := by
    simp only [loadSubs, h1x]
    rw [h1r, hrd1]
    have e : documentsDict h1.docs x = some sd := hsd1
    rw [e]
    have e2 : subsLoop w (load w (fun _ => true) f false) x d1.path sd rootDict d1.includes
        (Heap.mk (modify h1.docs x fun d => { d with subs := [] }) h1.root h1.loads) = (.ok b, h3) := by
      rw [show d1.path = q from hdp, show d1.includes = incs from hdi.trans hinc]
      exact hloop
    rw [h1r] at e2
    simp only [e2]
  rw [hload, hsubs]
  refine ⟨_, _, rfl, ?_, ?_⟩
  · have hmt : (h3.docs[x]?).bind (·.mtime) = some mt := by rw [hinv3.self]; rfl
    rw [hmt]
    have hrep3 : Rep (inc w) h3.docs (.node x q l) par := by
      simp only [Rep]
      exact ⟨⟨_, hinv3.self, hdp, rfl, hdpar, hdl, hdb, hdi, rfl⟩, repL_later l x hrl (finL_later l _ _ hinv3.fin)⟩
    have hdepth : (Tree.node x q l).depth ≤ h3.docs.length + 1 := by
      have h1 := depth_le (Tree.node x q l)
      have h2 := length_le_of_nodup h3.docs.length _ hnd (rep_lt _ par hrep3)
      omega
    have hr : Raised mt h3.docs (updateMtime (h3.docs.length + 1) (some mt) h3.docs x) (Tree.node x q l).labs :=
      updateMtime_rep _ par (h3.docs.length + 1) mt h3.docs hrep3 hnd hdepth
    refine ⟨hinv3.root, ?_, ?_, ?_, ?_⟩
    · show (updateMtime _ _ _ _).length = _
      rw [updateMtime_length, hinv3.len]
    · intro i hi
      show (updateMtime _ _ _ _)[i]? = _
      rw [hr i, if_neg hi]
      exact hinv3.out i hi
    · simp only [Fin]
      refine ⟨?_, ?_⟩
      · show (updateMtime _ _ _ _)[x]? = _
        rw [hr x, if_pos (by simp [Tree.labs]), hinv3.self, hd]
        simp [raise, d1, mt, ← hds]
      · have := finL_raised hr l mt 0 (fun i hi => by simp [Tree.labs, hi]) hinv3.fin
        simp only [Nat.max_comm mt 0] at this
        exact this
    · show h3.loads = _
      rw [hinv3.loads]
      simp only [reloads, List.append_assoc]
      rfl
  · simp only [reloads, ne_eq, List.append_eq_nil_iff, not_and_or, Bool.or_eq_true, hb]
    cases again w h.docs force pm x q <;> simp [mt]

/-! ### Trees of documents -/

mutual
  /-- The whole tree has the shape given by the includes. -/
  def Shape {A : Type} (w : World P) (root : P) : Tree P A → Prop
    | .node _ q l => (contents w q).isSome ∧ shapeAt w root q l ∧ ShapeL w root l
  def ShapeL {A : Type} (w : World P) (root : P) : List (Tree P A) → Prop
    | [] => True
    | t :: l => Shape w root t ∧ ShapeL w root l
end

theorem shapeL_iff {A : Type} (w : World P) (root : P) (l : List (Tree P A)) : ShapeL w root l ↔ ∀ t ∈ l, Shape w root t := by
  induction l with
  | nil => simp [ShapeL]
  | cons t l ih => simp [ShapeL, ih]

theorem paths_sub (l : List (Tree P Nat)) (t : Tree P Nat) (ht : t ∈ l) (h : (pathsL l).Nodup) : t.paths.Nodup := by
  obtain ⟨a, b, rfl⟩ := List.append_of_mem ht
  rw [pathsL_append, List.nodup_append] at h
  have := h.2.1
  simp only [pathsL, List.nodup_append] at this
  exact this.1

theorem labs_sub (l : List (Tree P Nat)) (t : Tree P Nat) (ht : t ∈ l) (h : (labsL l).Nodup) : t.labs.Nodup := by
  obtain ⟨a, b, rfl⟩ := List.append_of_mem ht
  rw [labsL_append, List.nodup_append] at h
  have := h.2.1
  simp only [labsL, List.nodup_append] at this
  exact this.1

theorem depth_mem (l : List (Tree P Nat)) (t : Tree P Nat) (ht : t ∈ l) : t.depth ≤ depthL l := by
  induction l with
  | nil => simp at ht
  | cons s l ih =>
    simp only [depthL]
    rcases List.mem_cons.1 ht with rfl | ht
    · omega
    · have := ih ht; omega

/-- Loading a document that is not the root, in the middle of loading the root. -/
theorem load_known (w : World P) (root : P) : ∀ (f : Nat) (t tr : Tree P Nat) (h : Heap P) (y : Nat),
    t.depth ≤ f → Rep (inc w) h.docs t (some y) → t.labs.Nodup → t.paths.Nodup → Shape w root t → root ∉ t.paths →
    Rep (inc w) h.docs tr none → tr.labs.Nodup → tr.lab = h.root → root ∈ tr.keys → (∀ i ∈ tr.labs, i ∉ t.labs) → y ∉ t.labs →
    ∃ b h', load w (fun _ => true) f false h t.lab = (.ok b, h') ∧ Kept w h h' t false (timeOf h.docs y) ∧
      (b = true ↔ reloads w h.docs t false (timeOf h.docs y) ≠ []) := by
  intro f
  induction f with
  | zero =>
    intro t tr h y hf
    cases t with
    | node x q l => simp [Tree.depth] at hf
  | succ f ih =>
    intro t tr h y hf hrep hnd hpn hsh hroot hrtr hntr hltr hktr hdis hy
    cases t with
    | node x q l =>
      simp only [Shape] at hsh
      refine load_old w f root h x q l (some y) false (timeOf h.docs y) hrep hnd hpn hsh.2.1 (fun _ => hroot) hsh.1 rfl ?_ ?_
      · intro docs1 hlen hout _
        have hr1 : Rep (inc w) docs1 tr none := rep_later tr none hrtr (later_of_eq fun i hi => hout i (fun e => hdis i hi (by simp [Tree.labs, e])))
        obtain ⟨d, hd, hk, _⟩ := documentsDict_rep tr none hr1 hntr
        exact ⟨d, by rw [← hltr]; exact hd, fun _ => by rw [hk]; exact hktr⟩
      · intro acc t1 rest hh L0 d hl hrx hi hdm
        have ht1 : t1 ∈ l := by rw [hl]; simp
        have hlab : ∀ i ∈ labsL acc, i ∈ labsL l := fun i hi => by rw [hl, labsL_append]; simp [hi]
        have hlab1 : ∀ i ∈ t1.labs, i ∈ labsL l := fun i hi => (mem_labsL _ _).2 ⟨t1, ht1, hi⟩
        have hx1 : x ∉ t1.labs := fun hm => (List.nodup_cons.1 hnd).1 (hlab1 x hm)
        have hdis1 : ∀ i ∈ labsL acc, i ∉ t1.labs := by
          have := (List.nodup_cons.1 hnd).2
          rw [hl, labsL_append, List.nodup_append] at this
          exact fun i hi hm => this.2.2 i hi i (by simp [labsL, hm]) rfl
        have htime : timeOf hh.docs x = some (newTime w h.docs false (timeOf h.docs y) x q) := by
          unfold timeOf; rw [hi.self]; exact hdm
        have h1D : ∀ i ∈ t1.labs, hh.docs[i]? = h.docs[i]? := fun i him => hi.out i (by
          intro hm
          rcases List.mem_cons.1 hm with rfl | hm
          · exact hx1 him
          · exact hdis1 i hm him)
        obtain ⟨b, h', h1, h2, h3⟩ := ih t1 tr hh x (by
            have := depth_mem l t1 ht1
            simp only [Tree.depth] at hf
            omega)
          (by
            simp only [Rep] at hrep
            exact rep_later t1 _ ((repL_iff _ _ _ _).1 hrep.2 t1 ht1) (later_of_eq h1D))
          (labs_sub l t1 ht1 (List.nodup_cons.1 hnd).2) (paths_sub l t1 ht1 (List.nodup_cons.1 hpn).2)
          ((shapeL_iff _ _ _).1 hsh.2.2 t1 ht1)
          (fun hm => hroot (by simp only [Tree.paths]; exact List.mem_cons_of_mem _ ((mem_pathsL _ _).2 ⟨t1, ht1, hm⟩)))
          (rep_later tr none hrtr (later_of_eq fun i him => hi.out i (fun hm => by
            have := hdis i him
            rcases List.mem_cons.1 hm with rfl | hm
            · exact this (by simp [Tree.labs])
            · exact this (by simp [Tree.labs, hlab i hm]))))
          hntr (hltr.trans hi.root.symm) hktr (fun i him hm => hdis i him (by simp [Tree.labs, hlab1 i hm])) hx1
        rw [htime] at h2 h3
        rw [reloads_congr t1 _ _ h1D] at h3
        exact ⟨b, h', h1, h2, h3⟩

/-- Loading the root document again. -/
theorem load_root (w : World P) (root : P) (f : Nat) (t : Tree P Nat) (h : Heap P) (force : Bool)
    (hf : t.depth ≤ f) (hrep : Rep (inc w) h.docs t none) (hnd : t.labs.Nodup) (hpn : t.paths.Nodup) (hsh : Shape w root t) (hroot : t.path = root)
    (hlab : t.lab = h.root) :
    ∃ b h', load w (fun _ => true) f force h h.root = (.ok b, h') ∧ Kept w h h' t force none ∧ (b = true ↔ reloads w h.docs t force none ≠ []) := by
  cases f with
  | zero =>
    cases t with
    | node x q l => simp [Tree.depth] at hf
  | succ f =>
    cases t with
    | node x q l =>
      simp only [Shape] at hsh
      obtain rfl : q = root := hroot
      obtain rfl : x = h.root := hlab
      refine load_old w f q h h.root q l none force none hrep hnd hpn hsh.2.1 (fun hne => absurd rfl hne) hsh.1 rfl ?_ ?_
      · intro docs1 hlen hout hr1
        obtain ⟨d, hd, _⟩ := documentsDict_rep _ none hr1 hnd
        exact ⟨d, hd, fun hne => absurd rfl hne⟩
      · intro acc t1 rest hh L0 d hl hrx hi hdm
        have ht1 : t1 ∈ l := by rw [hl]; simp
        have hlab1 : ∀ i ∈ t1.labs, i ∈ labsL l := fun i hi => (mem_labsL _ _).2 ⟨t1, ht1, hi⟩
        have hx1 : h.root ∉ t1.labs := fun hm => (List.nodup_cons.1 hnd).1 (hlab1 _ hm)
        have hnl := (List.nodup_cons.1 hnd).2
        rw [hl, labsL_append, List.nodup_append] at hnl
        have hdis1 : ∀ i ∈ labsL acc, i ∉ t1.labs :=
          fun i hi hm => hnl.2.2 i hi i (by simp [labsL, hm]) rfl
        have htime : timeOf hh.docs h.root = some (newTime w h.docs force none h.root q) := by
          unfold timeOf; rw [hi.self]; exact hdm
        have h1D : ∀ i ∈ t1.labs, hh.docs[i]? = h.docs[i]? := fun i him => hi.out i (by
          intro hm
          rcases List.mem_cons.1 hm with rfl | hm
          · exact hx1 him
          · exact hdis1 i hm him)
        obtain ⟨b, h', h1, h2, h3⟩ := load_known w q f t1 (.node h.root q acc) hh h.root (by
            have := depth_mem l t1 ht1
            simp only [Tree.depth] at hf
            omega)
          (by
            simp only [Rep] at hrep
            exact rep_later t1 _ ((repL_iff _ _ _ _).1 hrep.2 t1 ht1) (later_of_eq h1D))
          (labs_sub l t1 ht1 (List.nodup_cons.1 hnd).2) (paths_sub l t1 ht1 (List.nodup_cons.1 hpn).2)
          ((shapeL_iff _ _ _).1 hsh.2.2 t1 ht1)
          (fun hm => (List.nodup_cons.1 hpn).1 ((mem_pathsL _ _).2 ⟨t1, ht1, hm⟩))
          hrx (by
            simp only [Tree.labs, List.nodup_cons]
            exact ⟨fun hm => (List.nodup_cons.1 hnd).1 (by rw [hl, labsL_append]; simp [hm]), hnl.1⟩)
          hi.root.symm ((mem_keys _ _ _ _).2 (Or.inl rfl)) (fun i him => by
            simp only [Tree.labs, List.mem_cons] at him
            rcases him with rfl | him
            · exact hx1
            · exact hdis1 i him) hx1
        rw [htime] at h2 h3
        rw [reloads_congr t1 _ _ h1D] at h3
        exact ⟨b, h', h1, h2, h3⟩

/-! ### The shape of new trees -/

theorem map_path_erase {A : Type} (l : List (Tree P A)) : (eraseL l).map Tree.path = l.map Tree.path := by
  induction l with
  | nil => rfl
  | cons t l ih => simp only [eraseL, List.map_cons]; rw [ih, erase_path]

mutual
  theorem shape_erase {A : Type} (w : World P) (root : P) : ∀ t : Tree P A, Shape w root t.erase ↔ Shape w root t
    | .node a q l => by
      simp only [Tree.erase, Shape, shapeAt]
      rw [map_path_erase, shapeL_erase w root l]
  theorem shapeL_erase {A : Type} (w : World P) (root : P) : ∀ l : List (Tree P A), ShapeL w root (eraseL l) ↔ ShapeL w root l
    | [] => Iff.rfl
    | t :: l => by simp only [eraseL, ShapeL]; rw [shape_erase w root t, shapeL_erase w root l]
end

theorem unfoldLoop_shape {w : World P} {root : P} (rec : List (Tree P Unit) → P → Option (Tree P Unit)) (skip : List P) (q : P)
    (hroot : root ∈ skip) (Q : List (Tree P Unit) → Prop)
    (hrec : ∀ acc m T, Q acc → Arrow w root q m → m ∉ acc.map Tree.path → rec acc m = some T → T.path = m ∧ Shape w root T ∧ Q (acc ++ [T]))
    (hskip : ∀ m, Arrow w root q m → m ∉ skip) :
    ∀ (ms : List P) (acc acc' : List (Tree P Unit)), (∀ m ∈ ms, m ∈ inc w q) → (acc.map Tree.path ++ ms).Nodup → ShapeL w root acc → Q acc →
      unfoldLoop rec skip q ms acc = some acc' →
      ShapeL w root acc' ∧ acc'.map Tree.path = acc.map Tree.path ++ ms.filter (fun m => decide (m ≠ q) && decide (m ≠ root)) := by
  intro ms
  induction ms with
  | nil =>
    intro acc acc' _ _ h1 _ he
    obtain rfl := Option.some.inj he
    exact ⟨h1, by simp⟩
  | cons m ms ih =>
    intro acc acc' hsub hnd h1 hQ he
    have hsub' : ∀ m' ∈ ms, m' ∈ inc w q := fun m' hm' => hsub m' (List.mem_cons_of_mem _ hm')
    simp only [unfoldLoop] at he
    split at he
    · rename_i hm
      have hout : (decide (m ≠ q) && decide (m ≠ root)) = false := by
        by_cases h1 : m = q
        · simp [h1]
        · by_cases h2 : m = root
          · simp [h2]
          · exact absurd (hm.resolve_left h1) (hskip m ⟨hsub m (by simp), h1, h2⟩)
      rw [List.filter_cons_of_neg (by rw [hout]; simp)]
      refine ih _ _ hsub' ?_ h1 hQ he
      rw [List.nodup_append] at hnd ⊢
      exact ⟨hnd.1, (List.nodup_cons.1 hnd.2.1).2, fun a ha b hb => hnd.2.2 a ha b (List.mem_cons_of_mem _ hb)⟩
    · rename_i hn
      split at he
      · simp at he
      · rename_i T hT
        have harr : Arrow w root q m := ⟨hsub m (by simp), fun e => hn (Or.inl e), fun e => hn (Or.inr (e ▸ hroot))⟩
        have hfr : m ∉ acc.map Tree.path := by
          rw [List.nodup_append] at hnd
          exact fun h => hnd.2.2 _ h m (by simp) rfl
        obtain ⟨hp, hs, hQ'⟩ := hrec _ _ _ hQ harr hfr hT
        rw [put_new acc T (hp ▸ hfr)] at he
        rw [List.filter_cons_of_pos (by simp [harr.2.1, harr.2.2])]
        obtain ⟨h3, h4⟩ := ih (acc ++ [T]) acc' hsub' (by
          rw [List.map_append, List.append_assoc, List.map_singleton, hp]; exact hnd) (by
          rw [shapeL_iff] at h1 ⊢
          intro t ht
          rcases List.mem_append.1 ht with ht | ht
          · exact h1 t ht
          · rw [List.mem_singleton.1 ht]; exact hs) hQ' he
        refine ⟨h3, ?_⟩
        rw [h4, List.map_append, List.map_singleton, hp, List.append_assoc]
        rfl

theorem unfold_shape {w : World P} {root : P} (R : List P) (hroot : root ∈ R) (hn : ∀ p, (inc w p).Nodup) : ∀ (f : Nat) (q : P) (T : Tree P Unit),
    (∀ k, Relation.TransGen (Arrow w root) q k → k ∉ R) → unfold w R f q = some T → Shape w root T := by
  intro f
  induction f with
  | zero => intro q T _ h; simp [unfold] at h
  | succ f ih =>
    intro q T hR h
    rw [unfold] at h
    cases hc : contents w q with
    | none => rw [hc] at h; simp at h
    | some incs =>
      rw [hc] at h
      simp only [Option.map_eq_some_iff] at h
      obtain ⟨acc, hl, rfl⟩ := h
      have hinc : inc w q = incs := by unfold inc; rw [hc]; rfl
      obtain ⟨h1, h2⟩ := unfoldLoop_shape (w := w) (root := root) _ R q hroot (fun _ => True)
        (fun _ m T _ ha _ hT => ⟨unfold_path w R f m T hT, ih m T (fun k hk => hR k (Relation.TransGen.head ha hk)) hT, trivial⟩)
        (fun m ha => hR m (.single ha)) incs [] acc (by rw [hinc]; exact fun _ h => h) (by have := hn q; rw [hinc] at this; simpa using this)
        trivial trivial hl
      simp only [Shape, shapeAt]
      refine ⟨by rw [hc]; rfl, ?_, h1⟩
      rw [h2, hinc]; rfl

theorem unfoldRoot_shape {w : World P} {root : P} (hu : Unique w root) (hn : ∀ p, (inc w p).Nodup) (f : Nat) (T : Tree P Unit)
    (h : unfoldRoot w f root = some T) : Shape w root T := by
  have hg := unfoldRoot_good f T h
  cases f with
  | zero => simp [unfoldRoot] at h
  | succ f =>
    rw [unfoldRoot] at h
    cases hc : contents w root with
    | none => rw [hc] at h; simp at h
    | some incs =>
      rw [hc] at h
      simp only [Option.map_eq_some_iff] at h
      obtain ⟨acc, hl, rfl⟩ := h
      have hinc : inc w root = incs := by unfold inc; rw [hc]; rfl
      obtain ⟨h1, h2⟩ := unfoldLoop_shape (w := w) (root := root) _ [root] root (by simp)
        (fun acc => ∀ t ∈ acc, Arrow w root root t.path ∧ ∀ k ∈ t.keys, Relation.ReflTransGen (Arrow w root) t.path k)
        (fun acc m T hQ ha hfr hT => by
          have hp := unfold_path w _ f m T hT
          have hmem : root ∈ (Tree.node () root acc).keys := (mem_keys _ _ _ _).2 (Or.inl rfl)
          refine ⟨hp, unfold_shape _ hmem hn f m T ?_ hT, ?_⟩
          · intro k hk hkm
            rcases (mem_keys _ _ _ _).1 hkm with rfl | ⟨t, ht, hkt⟩
            · obtain ⟨c, _, hc⟩ := Relation.TransGen.tail'_iff.1 hk
              exact hc.2.2 rfl
            · obtain ⟨h3, h4⟩ := hQ t ht
              refine siblings hu .root hg h3 ha (fun e => hfr (List.mem_map.2 ⟨t, ht, e⟩)) (h4 k hkt) hk.to_reflTransGen
          · intro t ht
            rcases List.mem_append.1 ht with ht | ht
            · exact hQ t ht
            · rw [List.mem_singleton.1 ht, hp]
              exact ⟨ha, unfold_star _ hmem f m T hT⟩)
        (fun m ha hm => ha.2.2 (List.mem_singleton.1 hm)) incs [] acc (by rw [hinc]; exact fun _ h => h) (by have := hn root; rw [hinc] at this; simpa using this)
        trivial (by simp) hl
      simp only [Shape, shapeAt]
      refine ⟨by rw [hc]; rfl, ?_, h1⟩
      rw [h2, hinc]; rfl

/-! ### Settled times -/

section
variable {w w0 : World P} {I : P → List P} {docs docs' : List (Doc P)}

theorem fileTime_le_newTime (force : Bool) (pm : Option Nat) (x : Nat) (p : P) : fileTime w p ≤ newTime w docs force pm x p := by
  unfold newTime
  split
  · exact Nat.le_refl _
  · rename_i h
    simp only [again, Bool.or_eq_true, decide_eq_true_eq, not_or] at h
    omega

mutual
  theorem fin_timed : ∀ (t : Tree P Nat) (par : Option Nat) (force : Bool) (pm : Option Nat) (lo : Nat), Rep I docs t par → Fin w docs docs' t force pm lo →
      Timed w docs' t lo
    | .node x p l, par, force, pm, lo, hr, hf => by
      simp only [Rep] at hr
      simp only [Fin] at hf
      simp only [Timed]
      obtain ⟨⟨d, hd, _⟩, hl⟩ := hr
      refine ⟨max lo (newTime w docs force pm x p), ?_, by omega, fun f hf => ?_, finL_timed l x _ _ hl hf.2⟩
      · unfold timeOf; rw [hf.1, hd]; rfl
      · have := fileTime_le_newTime (w := w) (docs := docs) force pm x p
        unfold fileTime at this
        rw [hf] at this
        simp at this
        omega
  theorem finL_timed : ∀ (l : List (Tree P Nat)) (y : Nat) (m lo : Nat), RepL I docs l y → FinL w docs docs' l m lo → TimedL w docs' l lo
    | [], _, _, _, _, _ => trivial
    | t :: l, y, m, lo, hr, hf => by
      simp only [RepL] at hr
      simp only [FinL] at hf
      simp only [TimedL]
      exact ⟨fin_timed t _ _ _ _ hr.1 hf.1, finL_timed l y _ _ hr.2 hf.2⟩
end

mutual
  /-- Nothing happens if no file changed. -/
  theorem fin_same : ∀ (t : Tree P Nat) (pm : Option Nat) (lo : Nat), Timed w docs t lo → (∀ m, pm = some m → m ≤ lo) → Fin w docs docs' t false pm lo →
      reloads w docs t false pm = [] ∧ ∀ i ∈ t.labs, docs'[i]? = docs[i]?
    | .node x p l, pm, lo, ht, hpm, hf => by
      simp only [Timed] at ht
      simp only [Fin] at hf
      obtain ⟨m, hm, hlo, hfile, hl⟩ := ht
      have hold : oldTime docs x = m := by simp [oldTime, hm]
      have hag : again w docs false pm x p = false := by
        simp only [again, Bool.false_or, Bool.or_eq_false_iff, decide_eq_false_iff_not, hold]
        refine ⟨?_, ?_⟩
        · unfold fileTime
          cases hw : w p with
          | none => simp
          | some f => have := hfile f hw; simp; omega
        · cases pm with
          | none => rfl
          | some v => have := hpm v rfl; simp; omega
      have hnt : newTime w docs false pm x p = m := by simp [newTime, hag, hold]
      have hmax : max lo m = m := by omega
      rw [hnt, hmax] at hf
      obtain ⟨h1, h2⟩ := finL_same l m m hl (Nat.le_refl _) hf.2
      simp only [reloads, hag, hnt, h1]
      refine ⟨by simp, fun i hi => ?_⟩
      rcases List.mem_cons.1 hi with rfl | hi
      · rw [hf.1]
        unfold timeOf at hm
        cases hd : docs[i]? with
        | none => rfl
        | some d =>
          rw [hd] at hm
          simp only [Option.bind_some] at hm
          have htx : newText w docs false pm i p d.text = d.text := by simp only [newText, hag]; rfl
          simp [← hm, htx]
      · exact h2 i hi
  theorem finL_same : ∀ (l : List (Tree P Nat)) (m lo : Nat), TimedL w docs l lo → m ≤ lo → FinL w docs docs' l m lo →
      reloadsL w docs l m = [] ∧ ∀ i ∈ labsL l, docs'[i]? = docs[i]?
    | [], _, _, _, _, _ => ⟨rfl, by simp [labsL]⟩
    | t :: l, m, lo, ht, hm, hf => by
      simp only [TimedL] at ht
      simp only [FinL] at hf
      obtain ⟨h1, h2⟩ := fin_same t (some m) lo ht.1 (fun v hv => by have := Option.some.inj hv; omega) hf.1
      obtain ⟨h3, h4⟩ := finL_same l m lo ht.2 hm hf.2
      refine ⟨by simp [reloadsL, h1, h3], fun i hi => ?_⟩
      rcases List.mem_append.1 hi with hi | hi
      · exact h2 i hi
      · exact h4 i hi
end

theorem modified_iff {y : Nat} {p : P} (ht : (timeOf docs y).isSome) (hw : (w p).isSome) :
    modifiedSince w docs y (some p) = decide (oldTime docs y < fileTime w p) := by
  obtain ⟨t, ht⟩ := Option.isSome_iff_exists.1 ht
  obtain ⟨f, hw⟩ := Option.isSome_iff_exists.1 hw
  simp [modifiedSince, oldTime, fileTime, ht, hw]

mutual
  /-- The documents that are reloaded, if the times are settled. -/
  theorem reloads_stale : ∀ (t : Tree P Nat) (y : Nat) (q : P) (my : Nat), Rep I docs t (some y) → pathOf docs y = some q → (w q).isSome →
      (∀ p ∈ t.paths, (w p).isSome) → timeOf docs y = some my → Timed w0 docs t my → ∀ (force : Bool) (pmy : Option Nat),
      reloads w docs t false (some (newTime w docs force pmy y q)) = t.labs.filter (stale w docs)
    | .node x p l, y, q, my, hr, hq, hwq, hw, hmy, ht, force, pmy => by
      have hr' := hr
      simp only [Rep] at hr
      simp only [Timed] at ht
      obtain ⟨⟨d, hd, hdp, hds, hdpar, _, _, _, hdm⟩, hl⟩ := hr
      obtain ⟨m, hm, hlo, _, htl⟩ := ht
      have hpx : pathOf docs x = some p := by unfold pathOf; rw [hd]; simp [hdp]
      have hst : stale w docs x = again w docs false (some (newTime w docs force pmy y q)) x p := by
        unfold stale
        rw [hpx, hd]
        simp only [Option.bind_some, hdpar]
        rw [hq, modified_iff (by rw [hm]; rfl) (hw p (by simp [Tree.paths])), modified_iff (by rw [hm]; rfl) hwq]
        simp only [again, Bool.false_or, Option.any_some]
        congr 1
        rw [decide_eq_decide]
        have ho : oldTime docs x = m := by simp [oldTime, hm]
        have hoy : oldTime docs y = my := by simp [oldTime, hmy]
        unfold newTime
        split
        · exact Iff.rfl
        · rename_i hag
          simp only [again, Bool.or_eq_true, decide_eq_true_eq, not_or] at hag
          omega
      simp only [reloads, Tree.labs, List.filter_cons, hst]
      rw [reloadsL_stale l x p m hl hpx (hw p (by simp [Tree.paths])) (fun k hk => hw k (by simp [Tree.paths, hk])) hm htl]
      split <;> simp
  theorem reloadsL_stale : ∀ (l : List (Tree P Nat)) (y : Nat) (q : P) (my : Nat), RepL I docs l y → pathOf docs y = some q → (w q).isSome →
      (∀ p ∈ pathsL l, (w p).isSome) → timeOf docs y = some my → TimedL w0 docs l my → ∀ (force : Bool) (pmy : Option Nat),
      reloadsL w docs l (newTime w docs force pmy y q) = (labsL l).filter (stale w docs)
    | [], _, _, _, _, _, _, _, _, _, _, _ => rfl
    | t :: l, y, q, my, hr, hq, hwq, hw, hmy, ht, force, pmy => by
      simp only [RepL] at hr
      simp only [TimedL] at ht
      simp only [reloadsL, labsL, List.filter_append]
      rw [reloads_stale t y q my hr.1 hq hwq (fun k hk => hw k (by simp [pathsL, hk])) hmy ht.1,
        reloadsL_stale l y q my hr.2 hq hwq (fun k hk => hw k (by simp [pathsL, hk])) hmy ht.2]
end

theorem reloads_root (x : Nat) (p : P) (l : List (Tree P Nat)) (hr : Rep I docs (.node x p l) none) (hw : ∀ q ∈ (Tree.node x p l).paths, (w q).isSome)
    (ht : Timed w0 docs (.node x p l) 0) (hn : (Tree.node x p l).labs.Nodup) (force : Bool) :
    reloads w docs (.node x p l) force none = (Tree.node x p l).labs.filter (fun y => (force && decide (y = x)) || stale w docs y) := by
  simp only [Rep] at hr
  simp only [Timed] at ht
  obtain ⟨⟨d, hd, hdp, hds, hdpar, _, _, _, hdm⟩, hl⟩ := hr
  obtain ⟨m, hm, hlo, _, htl⟩ := ht
  have hpx : pathOf docs x = some p := by unfold pathOf; rw [hd]; simp [hdp]
  have hst : (force || stale w docs x) = again w docs force none x p := by
    unfold stale
    rw [hpx, hd]
    simp only [Option.bind_some, hdpar]
    rw [modified_iff (by rw [hm]; rfl) (hw p (by simp [Tree.paths]))]
    simp [again, modifiedSince]
  simp only [reloads, Tree.labs, List.filter_cons, decide_true, Bool.and_true, hst]
  rw [reloadsL_stale l x p m hl hpx (hw p (by simp [Tree.paths])) (fun k hk => hw k (by simp [Tree.paths, hk])) hm htl]
  have : (labsL l).filter (stale w docs) = (labsL l).filter (fun y => (force && decide (y = x)) || stale w docs y) := by
    apply List.filter_congr
    intro i hi
    have : i ≠ x := fun e => (List.nodup_cons.1 hn).1 (e ▸ hi)
    simp [this]
  rw [this]
  split <;> simp
end

/-! ### More fuel -/

theorem subsLoop_mono (w : World P) (rec rec' : Heap P → Nat → Except Err Bool × Heap P)
    (hrec : ∀ h y b h', rec h y = (.ok b, h') → rec' h y = (.ok b, h')) (x : Nat) (q : P) (sd rd : Dict P Nat) :
    ∀ (ms : List P) (h : Heap P) (b : Bool) (h' : Heap P), subsLoop w rec x q sd rd ms h = (.ok b, h') → subsLoop w rec' x q sd rd ms h = (.ok b, h') := by
  intro ms
  induction ms with
  | nil => intro h b h' he; exact he
  | cons m ms ih =>
    intro h b h' he
    simp only [subsLoop] at he ⊢
    split at he
    · rename_i hm; rw [if_pos hm]; exact ih _ _ _ he
    · rename_i hm
      rw [if_neg hm]
      cases hg : sd.get? m with
      | some y =>
        rw [hg] at he
        simp only at he ⊢
        cases hr : rec h y with
        | mk r h1 =>
          cases r with
          | error e => rw [hr] at he; simp at he
          | ok b1 =>
            rw [hr] at he
            rw [hrec _ _ _ _ hr]
            simp only at he ⊢
            generalize hX : (if (match h1.docs[y]? with
              | some d => d.subs.has q
              | none => false) = true then h1 else _) = X at he ⊢
            cases hs : subsLoop w rec x q sd rd ms X with
            | mk r2 h2 =>
              cases r2 with
              | error e => rw [hs] at he; simp at he
              | ok b2 => rw [hs] at he; rw [ih _ _ _ hs]; exact he
      | none =>
        rw [hg] at he
        simp only at he ⊢
        split at he
        · rename_i hrd; rw [if_pos hrd]; exact ih _ _ _ he
        · rename_i hrd
          rw [if_neg hrd]
          cases hr : rec { h with docs := h.docs ++ [newDoc w m (some x)] } h.docs.length with
          | mk r h1 =>
            cases r with
            | error e => rw [hr] at he; simp at he
            | ok b1 =>
              rw [hr] at he
              rw [hrec _ _ _ _ hr]
              simp only at he ⊢
              generalize hX : ({ h1 with docs := modify h1.docs x _ } : Heap P) = X at he ⊢
              cases hs : subsLoop w rec x q sd rd ms X with
              | mk r2 h2 =>
                cases r2 with
                | error e => rw [hs] at he; simp at he
                | ok b2 => rw [hs] at he; rw [ih _ _ _ hs]; exact he

theorem loadSubs_mono (w : World P) (rec rec' : Heap P → Nat → Except Err Bool × Heap P)
    (hrec : ∀ h y b h', rec h y = (.ok b, h') → rec' h y = (.ok b, h')) (h : Heap P) (x : Nat) (b : Bool) (h' : Heap P)
    (he : loadSubs w rec h x = (.ok b, h')) : loadSubs w rec' h x = (.ok b, h') := by
  unfold loadSubs at he ⊢
  split at he
  · simp at he
  · rename_i d hd
    split at he
    · rename_i rd sd h1 h2
      simp only [h1, h2] at he ⊢
      cases hs : subsLoop w rec x d.path sd rd d.includes { h with docs := modify h.docs x fun d => { d with subs := [] } } with
      | mk r h3 =>
        cases r with
        | error e => rw [hs] at he; simp at he
        | ok b2 => rw [hs] at he; rw [subsLoop_mono w rec rec' hrec _ _ _ _ _ _ _ _ hs]; exact he
    · simp at he

theorem load_mono (w : World P) (alive : Nat → Bool) : ∀ (f : Nat) (r : Bool) (h : Heap P) (x : Nat) (b : Bool) (h' : Heap P),
    load w alive f r h x = (.ok b, h') → load w alive (f + 1) r h x = (.ok b, h') := by
  intro f
  induction f with
  | zero => intro r h x b h' he; simp [load] at he
  | succ f ih =>
    intro r h x b h' he
    rw [load] at he ⊢
    cases hd : h.docs[x]? with
    | none => rw [hd] at he; simp at he
    | some d =>
      simp only [hd] at he ⊢
      cases hw : w d.path with
      | none => simp only [hw] at he; simp at he
      | some fl =>
        simp only [hw] at he ⊢
        split at he
        · rename_i hc
          rw [if_pos hc]
          cases ho : onload h x fl with
          | mk r1 h1 =>
            cases r1 with
            | error e => simp only [ho] at he; simp at he
            | ok u =>
              simp only [ho] at he ⊢
              cases hs : loadSubs w (load w alive f false) h1 x with
              | mk r2 h2 =>
                cases r2 with
                | error e => rw [hs] at he; simp at he
                | ok b2 => rw [hs] at he; rw [loadSubs_mono w _ _ (fun h y b h' => ih false h y b h') _ _ _ _ hs]; exact he
        · rename_i hc
          rw [if_neg hc]
          exact loadSubs_mono w _ _ (fun h y b h' => ih false h y b h') _ _ _ _ he

theorem load_mono_le (w : World P) (alive : Nat → Bool) (f f' : Nat) (hf : f ≤ f') (r : Bool) (h : Heap P) (x : Nat) (b : Bool) (h' : Heap P)
    (he : load w alive f r h x = (.ok b, h')) : load w alive f' r h x = (.ok b, h') := by
  induction hf with
  | refl => exact he
  | step _ ih => exact load_mono w alive _ r h x b h' ih

/-! ### What is listed -/

mutual
  theorem timed_get {w : World P} {docs : List (Doc P)} : ∀ (t : Tree P Nat) (lo : Nat), Timed w docs t lo → ∀ y ∈ t.labs, ∃ m, timeOf docs y = some m
    | .node x p l, lo, h, y, hy => by
      simp only [Timed] at h
      obtain ⟨m, hm, _, _, hl⟩ := h
      rcases List.mem_cons.1 hy with rfl | hy
      · exact ⟨m, hm⟩
      · exact timedL_get l m hl y hy
  theorem timedL_get {w : World P} {docs : List (Doc P)} : ∀ (l : List (Tree P Nat)) (lo : Nat), TimedL w docs l lo → ∀ y ∈ labsL l, ∃ m, timeOf docs y = some m
    | [], _, _, y, hy => by simp [labsL] at hy
    | t :: l, lo, h, y, hy => by
      simp only [TimedL] at h
      rcases List.mem_append.1 hy with hy | hy
      · exact timed_get t lo h.1 y hy
      · exact timedL_get l lo h.2 y hy
end

theorem mem_set_values (d : Dict P Nat) (k : P) (v : Nat) (kv : P × Nat) (h : kv ∈ d.set k v) : kv.2 = v ∨ kv ∈ d := by
  induction d with
  | nil => left; rw [List.mem_singleton.1 h]
  | cons a d ih =>
    simp only [Dict.set] at h
    split at h
    · rcases List.mem_cons.1 h with rfl | h
      · exact Or.inl rfl
      · exact Or.inr (List.mem_cons_of_mem _ h)
    · rcases List.mem_cons.1 h with rfl | h
      · exact Or.inr (by simp)
      · exact (ih h).imp id (List.mem_cons_of_mem _)

theorem mem_update_values (e d : Dict P Nat) (kv : P × Nat) (h : kv ∈ d.update e) : kv ∈ d ∨ ∃ kv' ∈ e, kv'.2 = kv.2 := by
  induction e generalizing d with
  | nil => exact Or.inl h
  | cons a e ih =>
    rcases ih (d.set a.1 a.2) h with h | ⟨kv', h1, h2⟩
    · rcases mem_set_values d a.1 a.2 kv h with h | h
      · exact Or.inr ⟨a, by simp, h.symm⟩
      · exact Or.inl h
    · exact Or.inr ⟨kv', List.mem_cons_of_mem _ h1, h2⟩

mutual
  theorem docsDict_labs_aux {I : P → List P} {docs : List (Doc P)} : ∀ (t : Tree P Nat) (par : Option Nat) (fuel : Nat), Rep I docs t par →
      ∀ d, docsDict docs fuel t.lab = some d → ∀ kv ∈ d, kv.2 ∈ t.labs
    | .node x p l, par, 0, _, d, hd, _, _ => by simp [docsDict] at hd
    | .node x p l, par, fuel + 1, hr, d, hd, kv, hkv => by
      simp only [Rep] at hr
      obtain ⟨⟨dx, hdx, _, hds, _⟩, hl⟩ := hr
      simp only [docsDict, Tree.lab, hdx, hds] at hd
      rcases dictLoop_labs_aux l x fuel hl _ d hd kv hkv with h | h
      · rw [List.mem_singleton.1 h]; simp [Tree.labs]
      · simp [Tree.labs, h]
  theorem dictLoop_labs_aux {I : P → List P} {docs : List (Doc P)} : ∀ (l : List (Tree P Nat)) (x : Nat) (fuel : Nat), RepL I docs l x →
      ∀ acc d, dictLoop (docsDict docs fuel) acc (entries l) = some d → ∀ kv ∈ d, kv ∈ acc ∨ kv.2 ∈ labsL l
    | [], _, _, _, acc, d, hd, kv, hkv => by
      simp only [entries, List.map_nil, dictLoop, Option.some.injEq] at hd
      subst hd
      exact Or.inl hkv
    | t :: l, x, fuel, hr, acc, d, hd, kv, hkv => by
      simp only [RepL] at hr
      simp only [entries, List.map_cons, dictLoop] at hd
      split at hd
      · rename_i e he
        rcases dictLoop_labs_aux l x fuel hr.2 _ d hd kv hkv with h | h
        · rcases mem_update_values _ _ _ h with h | ⟨kv', h1, h2⟩
          · exact Or.inl h
          · have := docsDict_labs_aux t _ fuel hr.1 e he kv' h1
            rw [h2] at this
            exact Or.inr (by simp [labsL, this])
        · exact Or.inr (by simp [labsL, h])
      · simp at hd
end

theorem docsDict_labs {I : P → List P} {docs : List (Doc P)} {x : Nat} (t : Tree P Nat) (par : Option Nat) (ht : t.lab = x) (hr : Rep I docs t par)
    (d : Dict P Nat) (hd : documentsDict docs x = some d) : ∀ kv ∈ d, kv.2 ∈ t.labs := by
  rw [← ht] at hd
  exact docsDict_labs_aux t par _ hr d hd

theorem pairs_labs {A : Type} (t : Tree P A) : t.pairs.map (·.2) = t.labs := aux t
where
  aux : ∀ t : Tree P A, t.pairs.map (·.2) = t.labs
    | .node a p l => by simp only [Tree.pairs, Tree.labs, List.map_cons]; rw [auxL l]
  auxL : ∀ l : List (Tree P A), (pairsL l).map (·.2) = labsL l
    | [] => rfl
    | t :: l => by simp only [pairsL, labsL, List.map_append]; rw [aux t, auxL l]

end Verif.Documents
