import Verif.Lemmas.DocContext
import Verif.Props.Context

namespace Verif.DocContext

open Verif Verif.Context Verif.Context.Spec Verif.DocContext.Spec

theorem texts_get (d : Dict Str Str) (k : Str) : (texts d).get? k = (d.get? k).map fun s => FVal.atom (.str s) := by
  induction d with
  | nil => rfl
  | cons kv d ih =>
    obtain ⟨a, b⟩ := kv
    show Dict.get? ((a, FVal.atom (.str b)) :: texts d) k = _
    simp only [Dict.get?] at ih ⊢
    split
    · simp
    · exact ih

theorem texts_change {d : Dict Str Str} {k : Str} {c : FVal} (h : (texts d).get? k = some c) :
    ∃ s, c = .atom (.str s) ∧ d.get? k = some s := by
  rw [texts_get] at h
  cases hd : d.get? k with
  | none => rw [hd] at h; cases h
  | some s => rw [hd] at h; cases h; exact ⟨s, rfl, rfl⟩

section
variable (P : Py) (rep : List Str) (d : Dict Str Str) (ks : List Str) (F F' : FCtx)
  (e : fupdate P rep true F (texts d) ks = .ok F')
include e

theorem text_keeps_other (k : Str) (ty a : Nat) (h : F.get? k = some (.atom (.other ty a))) :
    F'.get? k = some (.atom (.other ty a)) := by
  refine fupdate_inv P rep true (texts d) k (fun o => o = some (.atom (.other ty a))) ?_ ks F F' h e
  rintro _ c r rfl hc hs
  obtain ⟨s, rfl, _⟩ := texts_change hc
  have : stepVal P rep true k (some (.atom (.other ty a))) (some (.atom (.str s))) = .ok (some (.atom (.other ty a))) := rfl
  rw [this] at hs; cases hs; rfl

theorem text_keeps_missing (k : Str) (h : d.get? k = none) : F'.get? k = F.get? k := by
  refine fupdate_inv P rep true (texts d) k (fun o => o = F.get? k) ?_ ks F F' rfl e
  intro o c r ho hc hs
  obtain ⟨s, _, hd⟩ := texts_change hc
  rw [h] at hd; cases hd

theorem text_keeps_int (k : Str) (n : Int) (h : F.get? k = some (.atom (.int n))) : ∃ n', F'.get? k = some (.atom (.int n')) := by
  refine fupdate_inv P rep true (texts d) k (fun o => ∃ n', o = some (.atom (.int n'))) ?_ ks F F' ⟨n, h⟩ e
  rintro _ c r ⟨n, rfl⟩ hc hs
  obtain ⟨s, rfl, _⟩ := texts_change hc
  simp only [stepVal, merge, FVal.asValue, changeAtom, Bool.not_true, Bool.false_eq_true, if_false, bind, Except.bind] at hs
  cases hi : P.toInt (.str s) with
  | ok j => rw [hi] at hs; cases hs; exact ⟨j, rfl⟩
  | valueError => rw [hi] at hs; cases hs; exact ⟨n, rfl⟩
  | typeError => rw [hi] at hs; cases hs

theorem text_prepends (k : Str) (hk : k ∉ rep) (base l : List Value) (h : F.get? k = some (.list (l ++ base))) :
    ∃ l', F'.get? k = some (.list (l' ++ base)) := by
  refine fupdate_inv P rep true (texts d) k (fun o => ∃ l', o = some (.list (l' ++ base))) ?_ ks F F' ⟨l, h⟩ e
  rintro _ c r ⟨l', rfl⟩ hc hs
  obtain ⟨s, rfl, _⟩ := texts_change hc
  simp only [stepVal, merge, FVal.toList, Bool.not_true, Bool.false_eq_true, if_false, bind, Except.bind, hk, decide_false] at hs
  cases hs
  exact ⟨(P.strToList s).map (fun x => Value.atom (.str x)) ++ l', by rw [List.append_assoc]⟩

end

/-- A text never makes an update raise. -/
theorem text_total (P : Py) (hP : TextConverts P) (rep : List Str) (d : Dict Str Str) (ks : List Str) (F : FCtx) :
    ∃ F', fupdate P rep true F (texts d) ks = .ok F' := by
  unfold fupdate
  induction ks generalizing F with
  | nil => exact ⟨F, rfl⟩
  | cons k ks ih =>
    simp only [List.foldlM_cons]
    have : ∃ F1, fupdateKey P rep true (texts d) F k = .ok F1 := by
      unfold fupdateKey
      cases hg : (texts d).get? k with
      | none => exact ⟨F, rfl⟩
      | some c =>
        obtain ⟨s, rfl, _⟩ := texts_change hg
        cases hf : F.get? k with
        | none => exact ⟨_, rfl⟩
        | some o =>
          obtain ⟨v, hv⟩ := merge_text_ok P hP (decide (k ∈ rep)) o s
          simp only [Bool.not_true, Bool.false_eq_true, if_false]
          rw [hv]; exact ⟨_, rfl⟩
    obtain ⟨F1, h1⟩ := this
    rw [h1]
    exact ih F1

/-- What loading does after the reset. -/
structure Loaded (tps : List Value) (t h : Dict Str Str) (F1 F' : FCtx) : Prop where
  nodup : F1.keys.Nodup → F'.keys.Nodup
  other : ∀ k, "body".toList ≠ k → "paths".toList ≠ k → ∀ ty a, F1.get? k = some (.atom (.other ty a)) → F'.get? k = some (.atom (.other ty a))
  missing : ∀ k, "body".toList ≠ k → "paths".toList ≠ k → t.get? k = none → h.get? k = none → F'.get? k = F1.get? k
  level : ∀ n, F1.get? "level".toList = some (.atom (.int n)) → ∃ n', F'.get? "level".toList = some (.atom (.int n'))
  paths : ∀ l, F1.get? "paths".toList = some (.list l) → ∃ pre, F'.get? "paths".toList = some (.list (pre ++ l))
  cleanPaths : ∀ l, F1.get? "paths".toList = some (.list l) → t.get? "paths".toList = none → h.get? "paths".toList = none →
    F'.get? "paths".toList = some (.list (tps ++ l))

theorem loadCtx_parts (W : World) (i src : Nat) (m : Option Int) (b : Str) (tps : List Value) (t h : Dict Str Str) (F : FCtx)
    (Fp : Option FCtx) (F' : FCtx) (e : loadCtx W i src m b tps t h F Fp = .ok F') :
    ∃ F1, docReset W i src m F Fp = .ok F1 ∧ Loaded tps t h F1 F' ∧
      (t.get? "body".toList = none → h.get? "body".toList = none → F'.get? "body".toList = some (.atom (.str b))) := by
  unfold loadCtx at e
  cases h1 : docReset W i src m F Fp with
  | error er => rw [h1] at e; cases e
  | ok F1 =>
    rw [h1] at e
    simp only [bind, Except.bind] at e
    generalize h2 : F1.set "body".toList (.atom (.str b)) = F2 at e
    cases h3 : prependPaths tps F2 with
    | error er => rw [h3] at e; cases e
    | ok F3 =>
      rw [h3] at e
      simp only at e
      cases h4 : fupdate W.P cls.replace true F3 (texts t) (texts t).keys with
      | error er => rw [h4] at e; cases e
      | ok F4 =>
        rw [h4] at e
        replace e : fupdate W.P cls.replace true F4 (texts h) (texts h).keys = .ok F' := e
        refine ⟨F1, rfl, ?_, ?_⟩
        rotate_left
        · intro ht hh
          rw [text_keeps_missing _ _ _ _ _ _ e _ hh, text_keeps_missing _ _ _ _ _ _ h4 _ ht]
          unfold prependPaths at h3
          split at h3
          · cases h3; rw [set_other _ _ _ _ (by decide), ← h2]; exact Dict.get?_set_self _ _ _
          · cases h3
        have o2 : ∀ k, "body".toList ≠ k → F2.get? k = F1.get? k := fun k hk => by rw [← h2]; exact set_other _ _ _ _ hk
        have o3 : ∀ k, "paths".toList ≠ k → F3.get? k = F2.get? k := by
          intro k hk
          unfold prependPaths at h3
          split at h3
          · cases h3; exact set_other _ _ _ _ hk
          · cases h3
        have p3 : ∀ l, F1.get? "paths".toList = some (.list l) → F3.get? "paths".toList = some (.list (tps ++ l)) := by
          intro l hl
          unfold prependPaths at h3
          rw [o2 _ (by decide), hl] at h3
          cases h3
          exact Dict.get?_set_self _ _ _
        constructor
        · intro n1
          have n2 : F2.keys.Nodup := by rw [← h2]; exact Dict.keys_set_nodup _ _ _ n1
          have n3 : F3.keys.Nodup := by
            unfold prependPaths at h3
            split at h3
            · cases h3; exact Dict.keys_set_nodup _ _ _ n2
            · cases h3
          exact fupdate_nodup _ _ _ _ _ _ _ (fupdate_nodup _ _ _ _ _ _ _ n3 h4) e
        · intro k hb hp ty a hk
          exact text_keeps_other _ _ _ _ _ _ e k ty a (text_keeps_other _ _ _ _ _ _ h4 k ty a (by rw [o3 k hp, o2 k hb]; exact hk))
        · intro k hb hp ht hh
          rw [text_keeps_missing _ _ _ _ _ _ e k hh, text_keeps_missing _ _ _ _ _ _ h4 k ht, o3 k hp, o2 k hb]
        · intro n hn
          obtain ⟨n', hn'⟩ := text_keeps_int _ _ _ _ _ _ h4 "level".toList n (by rw [o3 _ (by decide), o2 _ (by decide)]; exact hn)
          exact text_keeps_int _ _ _ _ _ _ e _ n' hn'
        · intro l hl
          obtain ⟨l', hl'⟩ := text_prepends _ _ _ _ _ _ h4 "paths".toList (by decide) l tps (p3 l hl)
          exact text_prepends _ _ _ _ _ _ e _ (by decide) l l' hl'
        · intro l hl ht hh
          rw [text_keeps_missing _ _ _ _ _ _ e _ hh, text_keeps_missing _ _ _ _ _ _ h4 _ ht, p3 l hl]

/-! ### The invariant -/

structure Good (W : World) (C : Prop) (s : State) (i : Nat) (d : Doc) : Prop where
  nodup : d.ctx.keys.Nodup
  document : d.ctx.get? "document".toList = some (.atom (docRef i))
  source : d.ctx.get? "src_filepath".toList = some (.atom (pathVal d.src))
  env : d.ctx.get? "environment".toList = some (.atom (envVal W.env))
  proot : d.ctx.get? "project_root".toList = some (.atom (pathVal W.root))
  troot : d.ctx.get? "target_root".toList = some (.atom (targetVal W.target))
  paths : ∃ pre, d.ctx.get? "paths".toList = some (.list (pre ++ ownPaths W d.src))
  level : ∃ n, d.ctx.get? "level".toList = some (.atom (.int n))
  rootref : ∃ j, d.ctx.get? "root_document".toList = some (.atom (docRef j))
  up : ∀ p, d.parent = some p → p < i
  id : C → d.ctx.get? "doc_id".toList = some (.atom (.str (W.docId d.src)))
  place : ∃ r n, Below s i r n ∧ d.ctx.get? "label_manager".toList = some (.atom (managerVal r)) ∧
    (Held s i → d.ctx.get? "root_document".toList = some (.atom (docRef r)) ∧
      (C → d.ctx.get? "is_root_document".toList = some (.atom (.bool d.parent.isNone)) ∧
        d.ctx.get? "level".toList = some (.atom (.int (n + 1)))))

def Inv (W : World) (C : Prop) (s : State) : Prop := ∀ (i : Nat) (d : Doc), s.docs[i]? = some d → Good W C s i d

theorem Good.typed {W : World} {C : Prop} {s : State} {i : Nat} {d : Doc} (g : Good W C s i d) : Typed d.ctx := by
  obtain ⟨r, _, _, hm, _⟩ := g.place
  exact ⟨g.nodup, .inr ⟨_, g.proot⟩, .inr ⟨_, g.troot⟩, .inr ⟨_, g.env⟩, .inr ⟨r, hm⟩, .inr g.level⟩

/-- The documents of `s` are in `s'`, with the same parents, and those gone are gone. -/
structure Ext (s s' : State) : Prop where
  docs : ∀ (i : Nat) (d : Doc), s.docs[i]? = some d → ∃ d', s'.docs[i]? = some d' ∧ d'.parent = d.parent
  gone : ∀ i, i ∈ s.gone → i ∈ s'.gone

theorem Ext.below {s s' : State} (x : Ext s s') {i r n : Nat} (h : Below s i r n) : Below s' i r n := by
  induction h with
  | root h hp => obtain ⟨d', h', e⟩ := x.docs _ _ h; exact .root h' (by rw [e, hp])
  | sub h hp _ ih => obtain ⟨d', h', e⟩ := x.docs _ _ h; exact .sub h' (by rw [e, hp]) ih

theorem below_unique {s : State} {i r n r' n' : Nat} (h : Below s i r n) (h' : Below s i r' n') : r = r' ∧ n = n' := by
  induction h generalizing r' n' with
  | root h hp =>
    cases h' with
    | root _ _ => exact ⟨rfl, rfl⟩
    | sub h2 hp2 _ => rw [h] at h2; cases h2; rw [hp] at hp2; cases hp2
  | sub h hp _ ih =>
    cases h' with
    | root h2 hp2 => rw [h] at h2; cases h2; rw [hp] at hp2; cases hp2
    | sub h2 hp2 b =>
      rw [h] at h2; cases h2; rw [hp] at hp2; cases hp2
      obtain ⟨e1, e2⟩ := ih b
      exact ⟨e1, by rw [e2]⟩

/-- Documents that were there and held later were held before. -/
theorem Ext.held {s s' : State} (x : Ext s s') (up : ∀ (i : Nat) (d : Doc), s.docs[i]? = some d → ∀ p, d.parent = some p → p < i)
    {i : Nat} (h : Held s' i) (hi : i < s.docs.length) : Held s i := by
  induction h with
  | root h hp =>
    obtain ⟨d, hd⟩ : ∃ d, s.docs[_]? = some d := ⟨_, List.getElem?_eq_getElem hi⟩
    obtain ⟨d', h', e⟩ := x.docs _ _ hd
    rw [h] at h'; cases h'
    exact .root hd (by rw [← e, hp])
  | sub h hp hg _ ih =>
    obtain ⟨d, hd⟩ : ∃ d, s.docs[_]? = some d := ⟨_, List.getElem?_eq_getElem hi⟩
    obtain ⟨d', h', e⟩ := x.docs _ _ hd
    rw [h] at h'; cases h'
    have hp' := e.symm.trans hp
    exact .sub hd hp' (fun hx => hg (x.gone _ hx)) (ih (Nat.lt_trans (up _ _ hd _ hp') hi))

theorem Good.mono {W : World} {C : Prop} {s s' : State} (x : Ext s s') (hs : Inv W C s) {i : Nat} {d : Doc}
    (hi : i < s.docs.length) (g : Good W C s i d) : Good W C s' i d := by
  obtain ⟨r, n, b, m, rest⟩ := g.place
  exact { g with place := ⟨r, n, x.below b, m, fun h => rest (x.held (fun i d hd => (hs i d hd).up) h hi)⟩ }

/-- What the parent context of a document gives. -/
structure Parent (W : World) (C : Prop) (s : State) (parent : Option Nat) (Fp : Option FCtx) : Prop where
  typed : ∀ p, Fp = some p → Typed p
  root : parent = none → ∃ p, Fp = some p ∧ p.get? "root_document".toList = none ∧ p.get? "level".toList = none ∧ p.get? "label_manager".toList = none
  sub : ∀ q, parent = some q → q ∉ s.gone → ∃ d, s.docs[q]? = some d ∧ Good W C s q d ∧ Fp = some d.ctx
  lost : ∀ q, parent = some q → q ∈ s.gone → Fp = none

theorem parent_ok (W : World) (hW : DefaultsOk W) (C : Prop) (s : State) (hs : Inv W C s) (parent : Option Nat)
    (hp : ∀ p, parent = some p → p < s.docs.length) : Parent W C s parent (parentCtx W s parent) := by
  cases parent with
  | none =>
    have n : ∀ k ∈ reserved, k ≠ "paths" → W.defaults.get? k.toList = none := hW.2
    refine ⟨?_, ?_, by nofun, by nofun⟩
    · intro p hp'
      simp only [parentCtx, Option.some.injEq] at hp'
      subst hp'
      refine ⟨hW.1, .inl (n "project_root" (by decide) (by decide)), .inl (n "target_root" (by decide) (by decide)),
        .inl (n "environment" (by decide) (by decide)), .inl (n "label_manager" (by decide) (by decide)),
        .inl (n "level" (by decide) (by decide))⟩
    · intro _
      exact ⟨_, rfl, n "root_document" (by decide) (by decide), n "level" (by decide) (by decide), n "label_manager" (by decide) (by decide)⟩
  | some q =>
    have hq := hp q rfl
    have hd : s.docs[q]? = some s.docs[q] := List.getElem?_eq_getElem hq
    refine ⟨?_, by nofun, ?_, ?_⟩
    · intro p hp'
      simp only [parentCtx, hd, Option.map_some] at hp'
      split at hp'
      · cases hp'
      · cases hp'; exact (hs q _ hd).typed
    · intro q' hq' hg
      cases hq'
      exact ⟨_, hd, hs q _ hd, by simp only [parentCtx, hd, Option.map_some, if_neg hg]⟩
    · intro q' hq' hg
      cases hq'
      simp only [parentCtx, if_pos hg]

/-- The context of a document after a reset and what loading does then. -/
theorem good_after (W : World) (C : Prop) {s s' : State} (x : Ext s s') (hs : Inv W C s) (i src : Nat) (parent : Option Nat)
    (F F1 F' : FCtx) (Fp : Option FCtx) (tps : List Value) (t h : Dict Str Str)
    (par : Parent W C s parent Fp) (m : Option Int) (fa : Facts W i src m F Fp F1) (lo : Loaded tps t h F1 F')
    (hd' : s'.docs[i]? = some ⟨src, parent, F'⟩) (hdoc : F.get? "document".toList = some (.atom (docRef i)))
    (up : ∀ p, parent = some p → p < i)
    (clean : C → ∀ k ∈ ["doc_id", "level", "is_root_document"], t.get? k.toList = none ∧ h.get? k.toList = none)
    (hm : (F.get? "label_manager".toList = none ∧ ∀ q, parent = some q → q ∉ s.gone) ∨
      ∃ r n, F.get? "label_manager".toList = some (.atom (managerVal r)) ∧ Below s' i r n) :
    Good W C s' i ⟨src, parent, F'⟩ := by
  have lev : ∃ n, F1.get? "level".toList = some (.atom (.int n)) := by
    cases parent with
    | none => obtain ⟨p, e, _, hl, _⟩ := par.root rfl; exact ⟨_, fa.newLevel (by rw [e]; exact hl)⟩
    | some q =>
      by_cases hg : q ∈ s.gone
      · exact ⟨_, fa.newLevel (by rw [par.lost q rfl hg]; rfl)⟩
      · obtain ⟨d, _, g, e⟩ := par.sub q rfl hg
        obtain ⟨n, hn⟩ := g.level
        exact ⟨_, fa.oldLevel n (by rw [e]; exact hn)⟩
  have rr : ∃ j, F1.get? "root_document".toList = some (.atom (docRef j)) := by
    cases parent with
    | none => obtain ⟨p, e, hl, _, _⟩ := par.root rfl; exact ⟨_, (fa.newRoot (by rw [e]; exact hl)).1⟩
    | some q =>
      by_cases hg : q ∈ s.gone
      · exact ⟨_, (fa.newRoot (by rw [par.lost q rfl hg]; rfl)).1⟩
      · obtain ⟨d, _, g, e⟩ := par.sub q rfl hg
        obtain ⟨n, hn⟩ := g.rootref
        exact ⟨_, (fa.oldRoot n (by rw [e]; exact hn)).1⟩
  have ot := lo.other
  constructor
  · exact lo.nodup fa.nodup
  · exact ot _ (by decide) (by decide) _ _ (by rw [fa.document, hdoc]; rfl)
  · exact ot _ (by decide) (by decide) _ _ fa.source
  · exact ot _ (by decide) (by decide) _ _ fa.env
  · exact ot _ (by decide) (by decide) _ _ fa.proot
  · exact ot _ (by decide) (by decide) _ _ fa.troot
  · exact lo.paths _ fa.paths
  · obtain ⟨n, hn⟩ := lev; exact lo.level n hn
  · obtain ⟨j, hj⟩ := rr; exact ⟨j, ot _ (by decide) (by decide) _ _ hj⟩
  · exact up
  · intro c
    obtain ⟨c1, c2⟩ := clean c "doc_id" (by decide)
    show F'.get? "doc_id".toList = _
    rw [lo.missing _ (by decide) (by decide) c1 c2]
    exact fa.id
  · show ∃ r n, Below s' i r n ∧ F'.get? "label_manager".toList = some (.atom (managerVal r)) ∧
      (Held s' i → F'.get? "root_document".toList = some (.atom (docRef r)) ∧
        (C → F'.get? "is_root_document".toList = some (.atom (.bool parent.isNone)) ∧
          F'.get? "level".toList = some (.atom (.int (n + 1)))))
    have flags : C → F'.get? "is_root_document".toList = F1.get? "is_root_document".toList ∧
        F'.get? "level".toList = F1.get? "level".toList := by
      intro c
      obtain ⟨c1, c2⟩ := clean c "level" (by decide)
      obtain ⟨c3, c4⟩ := clean c "is_root_document" (by decide)
      exact ⟨lo.missing _ (by decide) (by decide) c3 c4, lo.missing _ (by decide) (by decide) c1 c2⟩
    cases parent with
    | none =>
      obtain ⟨p, e, hl1, hl2, hl3⟩ := par.root rfl
      have b : Below s' i i 0 := .root hd' rfl
      refine ⟨i, 0, b, ot _ (by decide) (by decide) _ _ ?_, fun _ => ?_⟩
      · rcases hm with ⟨hm, _⟩ | ⟨r, n, hm, b'⟩
        · exact fa.newManager (by rw [e]; exact hl3) hm
        · obtain ⟨rfl, _⟩ := below_unique b b'
          exact fa.keptManager _ (by rw [e]; exact hl3) hm
      · have nr := fa.newRoot (by rw [e]; exact hl1)
        refine ⟨ot _ (by decide) (by decide) _ _ nr.1, fun c => ?_⟩
        rw [(flags c).1, (flags c).2]
        exact ⟨nr.2, fa.newLevel (by rw [e]; exact hl2)⟩
    | some q =>
      by_cases hg : q ∈ s.gone
      · rcases hm with ⟨_, hm⟩ | ⟨r, n, hm, b'⟩
        · exact absurd hg (hm q rfl)
        · refine ⟨r, n, b', ot _ (by decide) (by decide) _ _ (fa.keptManager r (by rw [par.lost q rfl hg]; rfl) hm), fun hh => ?_⟩
          exfalso
          cases hh with
          | root h2 hp2 => rw [hd'] at h2; cases h2; cases hp2
          | sub h2 hp2 hg2 _ => rw [hd'] at h2; cases h2; cases hp2; exact hg2 (x.gone _ hg)
      · obtain ⟨d, hq, g, e⟩ := par.sub q rfl hg
        obtain ⟨r, n, b, m, rest⟩ := g.place
        refine ⟨r, n + 1, .sub hd' rfl (x.below b), ot _ (by decide) (by decide) _ _ (fa.inherited r (by rw [e]; exact m)), fun hh => ?_⟩
        have hq' : Held s q := by
          cases hh with
          | root h2 hp2 => rw [hd'] at h2; cases h2; cases hp2
          | sub h2 hp2 _ h3 =>
            rw [hd'] at h2; cases h2; cases hp2
            exact x.held (fun i d hd => (hs i d hd).up) h3 (List.getElem?_eq_some_iff.1 hq).1
        obtain ⟨rd, fl⟩ := rest hq'
        have nr := fa.oldRoot r (by rw [e]; exact rd)
        refine ⟨ot _ (by decide) (by decide) _ _ nr.1, fun c => ?_⟩
        rw [(flags c).1, (flags c).2]
        refine ⟨nr.2, ?_⟩
        have := fa.oldLevel (n + 1) (by rw [e]; exact (fl c).2)
        rw [this]; push_cast; rfl

theorem loaded_refl (F : FCtx) : Loaded [] [] [] F F :=
  ⟨id, fun _ _ _ _ _ h => h, fun _ _ _ _ _ => rfl, fun n h => ⟨n, h⟩, fun l h => ⟨[], h⟩, fun _ h _ _ => h⟩

theorem typed_new (i : Nat) : Typed [("document".toList, .atom (docRef i))] :=
  ⟨by simp, .inl rfl, .inl rfl, .inl rfl, .inl rfl, .inl rfl⟩

theorem ext_append (s : State) (d : Doc) : Ext s { s with docs := s.docs ++ [d] } :=
  ⟨fun i d' h => ⟨d', by
    show (s.docs ++ [d])[i]? = some d'
    rw [List.getElem?_append_left (List.getElem?_eq_some_iff.1 h).1]; exact h, rfl⟩, fun _ h => h⟩

theorem ext_set (s : State) (i : Nat) (d : Doc) (hd : s.docs[i]? = some d) (F : FCtx) :
    Ext s { s with docs := s.docs.set i { d with ctx := F } } := by
  refine ⟨fun j d' h => ?_, fun _ h => h⟩
  show ∃ d'', (s.docs.set i { d with ctx := F })[j]? = some d'' ∧ d''.parent = d'.parent
  have hi := (List.getElem?_eq_some_iff.1 hd).1
  by_cases hj : i = j
  · subst hj
    rw [hd] at h; cases h
    exact ⟨_, List.getElem?_set_self hi, rfl⟩
  · exact ⟨d', by rw [List.getElem?_set_ne hj]; exact h, rfl⟩

theorem inv_step (W : World) (hW : DefaultsOk W) (C : Prop) (s s' : State) (op : Op) (hs : Inv W C s) (ha : Allowed s op)
    (hc : C → Clean op) (e : step W s op = .ok s') : Inv W C s' := by
  cases op with
  | create parent src m =>
    simp only [step] at e
    cases hn : newCtx W s parent src m with
    | error er => rw [hn] at e; cases e
    | ok F' =>
      rw [hn] at e
      cases e
      have x := ext_append s ⟨src, parent, F'⟩
      intro i d hd
      replace hd : (s.docs ++ [(⟨src, parent, F'⟩ : Doc)])[i]? = some d := hd
      by_cases hi : i < s.docs.length
      · rw [List.getElem?_append_left hi] at hd
        exact (hs i d hd).mono x hs hi
      · have hi' : i = s.docs.length := by
          have := (List.getElem?_eq_some_iff.1 hd).1
          simp at this; omega
        subst hi'
        have hd0 := hd
        rw [List.getElem?_append_right (Nat.le_refl _)] at hd
        simp at hd
        subst hd
        have par := parent_ok W hW C s hs parent (fun p hp => (ha p hp).1)
        have fa := docReset_facts W _ src m _ _ F' (typed_new s.docs.length) par.typed hn
        exact good_after W C x hs _ src parent _ F' F' _ [] [] [] par m fa (loaded_refl F') hd0 rfl (fun p hp => (ha p hp).1)
          (fun _ k _ => ⟨rfl, rfl⟩) (.inl ⟨rfl, fun q hq => (ha q hq).2⟩)
  | load i m b tps t h =>
    simp only [step] at e
    cases hd : s.docs[i]? with
    | none => rw [hd] at e; cases e; exact hs
    | some d =>
      rw [hd] at e
      simp only at e
      cases hl : loadCtx W i d.src m b tps t h d.ctx (parentCtx W s d.parent) with
      | error er => rw [hl] at e; cases e
      | ok F' =>
        rw [hl] at e
        cases e
        have hi := (List.getElem?_eq_some_iff.1 hd).1
        have g := hs i d hd
        have x := ext_set s i d hd F'
        have par := parent_ok W hW C s hs d.parent (fun p hp => Nat.lt_trans (g.up p hp) hi)
        obtain ⟨F1, h1, lo, _⟩ := loadCtx_parts W i d.src m b tps t h d.ctx _ F' hl
        have fa := docReset_facts W i d.src m _ _ F1 g.typed par.typed h1
        obtain ⟨r, n, b', mg, _⟩ := g.place
        intro j d' hj
        replace hj : (s.docs.set i { d with ctx := F' })[j]? = some d' := hj
        by_cases hij : i = j
        · subst hij
          have hj0 := hj
          rw [List.getElem?_set_self hi] at hj
          cases hj
          exact good_after W C x hs i d.src d.parent d.ctx F1 F' _ tps t h par m fa lo hj0 g.document g.up hc
            (.inr ⟨r, n, mg, x.below b'⟩)
        · rw [List.getElem?_set_ne hij] at hj
          exact (hs j d' hj).mono x hs (List.getElem?_eq_some_iff.1 hj).1
  | set i k v =>
    simp only [step] at e
    cases hd : s.docs[i]? with
    | none => rw [hd] at e; cases e; exact hs
    | some d =>
      rw [hd] at e
      cases e
      have hi := (List.getElem?_eq_some_iff.1 hd).1
      have x := ext_set s i d hd (d.ctx.set k v)
      intro j d' hj
      replace hj : (s.docs.set i { d with ctx := d.ctx.set k v })[j]? = some d' := hj
      by_cases hij : i = j
      · subst hij
        rw [List.getElem?_set_self hi] at hj
        cases hj
        have g := (hs i d hd).mono x hs hi
        have hk : ∀ r ∈ reserved, (d.ctx.set k v).get? r.toList = d.ctx.get? r.toList := fun r hr => set_other _ _ _ _ (ha r hr)
        obtain ⟨r, n, b', mg, rest⟩ := g.place
        obtain ⟨pre, hp⟩ := g.paths
        obtain ⟨l, hl⟩ := g.level
        obtain ⟨j, hj⟩ := g.rootref
        exact ⟨Dict.keys_set_nodup _ _ _ g.nodup, (hk "document" (by decide)).trans g.document, (hk "src_filepath" (by decide)).trans g.source,
          (hk "environment" (by decide)).trans g.env, (hk "project_root" (by decide)).trans g.proot, (hk "target_root" (by decide)).trans g.troot,
          ⟨pre, (hk "paths" (by decide)).trans hp⟩, ⟨l, (hk "level" (by decide)).trans hl⟩, ⟨j, (hk "root_document" (by decide)).trans hj⟩,
          g.up, (fun c => (hk "doc_id" (by decide)).trans (g.id c)), r, n, b', (hk "label_manager" (by decide)).trans mg,
          fun hh => ⟨(hk "root_document" (by decide)).trans (rest hh).1, fun c =>
            ⟨(hk "is_root_document" (by decide)).trans ((rest hh).2 c).1, (hk "level" (by decide)).trans ((rest hh).2 c).2⟩⟩⟩
      · rw [List.getElem?_set_ne hij] at hj
        exact (hs j d' hj).mono x hs (List.getElem?_eq_some_iff.1 hj).1
  | drop i =>
    cases e
    have x : Ext s { s with gone := i :: s.gone } := ⟨fun j d h => ⟨d, h, rfl⟩, fun _ h => List.mem_cons_of_mem _ h⟩
    intro j d hj
    exact (hs j d hj).mono x hs (List.getElem?_eq_some_iff.1 hj).1

theorem inv_reached (W : World) (hW : DefaultsOk W) (ok : Op → Prop) (s : State) (h : Reached W ok s) :
    Inv W (∀ op, ok op → Clean op) s := by
  induction h with
  | start => intro i d hd; simp at hd
  | step _ ha hok e ih => exact inv_step W hW _ _ _ _ ih ha (fun c => c _ hok) e

end Verif.DocContext
