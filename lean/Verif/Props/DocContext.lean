import Verif.Lemmas.DocContextInv

/-!
# C91: the contexts of the documents of a project

Documents are created, loaded again and again, dropped, and their headers may hold anything. The theorems
say what the entries that the program relies on are then.
-/

namespace Verif.DocContext

open Verif Verif.Context Verif.Context.Spec Verif.DocContext.Spec

/-! ### A project -/

/-- Paths: 0 is the project directory, 10, 11 and 12 are sources, 12 in the directory 2. -/
def sampleWorld : World where
  P := samplePy
  defaults := [("targets".toList, .set [.atom (.str "html".toList)]), ("paths".toList, .list []), ("template".toList, .atom (.str "default".toList))]
  env := 7
  root := 0
  target := 5
  dir := fun p => if p = 12 then 2 else 0
  docId := fun p => if p = 10 then "a.dm".toList else if p = 11 then "b.dm".toList else "sub/c.dm".toList

theorem sample_defaults : DefaultsOk sampleWorld := by
  refine ⟨by decide, ?_⟩
  decide

/-- A root document 0, its sub-document 1 and that one's sub-document 2. -/
def sampleOps : List Op :=
  [.create none 10 (some 3),
   .load 0 (some 3) "text".toList [.atom (.other 9 1)] [] [("title".toList, "A".toList), ("include".toList, "b.dm".toList)],
   .create (some 0) 11 (some 4),
   .load 1 (some 4) "more".toList [] [("color".toList, "red".toList)] [("paths".toList, "here".toList), ("root_document".toList, "x".toList)],
   .create (some 1) 12 none,
   .load 2 (some 5) "last".toList [.atom (.other 9 1)] [] []]

def run (W : World) (s : State) (ops : List Op) : Except Err State := ops.foldlM (step W) s

def entriesOf (r : Except Err State) (i : Nat) (ks : List String) : Option (List (Option FVal)) :=
  match r with
  | .ok s => (s.docs[i]?).map fun d => ks.map fun k => d.ctx.get? k.toList
  | .error _ => none

example : entriesOf (run sampleWorld ⟨[], []⟩ sampleOps) 2
    ["document", "root_document", "label_manager", "is_root_document", "level", "doc_id", "paths", "title", "include", "color"] =
    some [some (.atom (docRef 2)), some (.atom (docRef 0)), some (.atom (managerVal 0)), some (.atom (.bool false)),
      some (.atom (.int 3)), some (.atom (.str "sub/c.dm".toList)),
      some (.list [.atom (.other 9 1), .atom (pathVal 2), .atom (pathVal 0)]), some (.atom (.str "A".toList)), none,
      some (.atom (.str "red".toList))] := by decide +kernel

/-- Whether an event is allowed and clean, computed. -/
def fine (s : State) : Op → Bool
  | .create parent _ _ => parent.all fun p => decide (p < s.docs.length ∧ p ∉ s.gone)
  | .load _ _ _ _ t h => ["doc_id", "level", "is_root_document"].all fun k => (t.get? k.toList).isNone && (h.get? k.toList).isNone
  | .set _ k _ => reserved.all fun r => decide (k ≠ r.toList)
  | .drop _ => true

def fineRun (W : World) : State → List Op → Option State
  | s, [] => some s
  | s, op :: ops => if fine s op then match step W s op with
    | .ok s' => fineRun W s' ops
    | .error _ => none
    else none

theorem fine_ok (s : State) (op : Op) (h : fine s op = true) : Allowed s op ∧ Clean op := by
  cases op with
  | create parent src m =>
    refine ⟨?_, trivial⟩
    rintro p rfl
    simpa [fine] using h
  | load i m b tps t hdr =>
    refine ⟨trivial, ?_⟩
    intro k hk
    have := List.all_eq_true.1 h k hk
    rw [Bool.and_eq_true] at this
    exact ⟨Option.isNone_iff_eq_none.1 this.1, Option.isNone_iff_eq_none.1 this.2⟩
  | set i k v => exact ⟨fun r hr => of_decide_eq_true (List.all_eq_true.1 h r hr), trivial⟩
  | drop i => exact ⟨trivial, trivial⟩

theorem fineRun_reached (W : World) (ops : List Op) (s s' : State) (h : Reached W Clean s) (e : fineRun W s ops = some s') :
    Reached W Clean s' := by
  induction ops generalizing s with
  | nil => cases e; exact h
  | cons op ops ih =>
    unfold fineRun at e
    split at e
    · rename_i hf
      cases h1 : step W s op with
      | error er => rw [h1] at e; cases e
      | ok s1 =>
        rw [h1] at e
        exact ih s1 (.step h (fine_ok s op hf).1 (fine_ok s op hf).2 h1) e
    · cases e

/-- The history is one the theorems are about. Its document 2 is two levels below the root document 0, and none of the
documents above it is gone. -/
example : ∃ s, Reached sampleWorld Clean s ∧ Below s 2 0 2 ∧ Held s 2 ∧ s.docs.length = 3 := by
  have e : (fineRun sampleWorld ⟨[], []⟩ sampleOps).map (fun s => (s.docs.map (·.parent), s.gone)) = some ([none, some 0, some 1], []) := by
    decide +kernel
  cases h : fineRun sampleWorld ⟨[], []⟩ sampleOps with
  | none => rw [h] at e; cases e
  | some s =>
    rw [h] at e
    simp only [Option.map_some, Option.some.injEq, Prod.mk.injEq] at e
    obtain ⟨e1, e2⟩ := e
    obtain ⟨docs, gone⟩ := s
    match docs, e1, e2, h with
    | [d0, d1, d2], e1, e2, h =>
      simp only [List.map_cons, List.map_nil, List.cons.injEq, and_true] at e1
      obtain ⟨p0, p1, p2⟩ := e1
      simp only at e2
      subst e2
      exact ⟨_, fineRun_reached _ _ _ _ .start h, .sub rfl p2 (.sub rfl p1 (.root rfl p0)),
        .sub rfl p2 (by simp) (.sub rfl p1 (by simp) (.root rfl p0)), rfl⟩

/-! ### The theorems -/

/-- C91. Whatever was created, loaded and dropped, and whatever the headers and templates held, the context of a
document has that document, its source, the build environment and the directories of the project. -/
theorem C91_own (W : World) (hW : DefaultsOk W) (ok : Op → Prop) (s : State) (h : Reached W ok s) (i : Nat) (d : Doc)
    (hd : s.docs[i]? = some d) :
    Entry d.ctx "document" (.atom (docRef i)) ∧ Entry d.ctx "src_filepath" (.atom (pathVal d.src)) ∧
      Entry d.ctx "environment" (.atom (envVal W.env)) ∧ Entry d.ctx "project_root" (.atom (pathVal W.root)) ∧
      Entry d.ctx "target_root" (.atom (targetVal W.target)) := by
  have g := inv_reached W hW ok s h i d hd
  exact ⟨g.document, g.source, g.env, g.proot, g.troot⟩

/-- C91. The paths of a document end with its own directory and that of the project. -/
theorem C91_paths (W : World) (hW : DefaultsOk W) (ok : Op → Prop) (s : State) (h : Reached W ok s) (i : Nat) (d : Doc)
    (hd : s.docs[i]? = some d) : ∃ before, Entry d.ctx "paths" (.list (before ++ ownPaths W d.src)) :=
  (inv_reached W hW ok s h i d hd).paths

/-- C91. All the documents of a project have one label manager, made for the root document; and each document has a
root document above it. -/
theorem C91_manager (W : World) (hW : DefaultsOk W) (ok : Op → Prop) (s : State) (h : Reached W ok s) (i : Nat) (d : Doc)
    (hd : s.docs[i]? = some d) : ∃ r n, Below s i r n ∧ Entry d.ctx "label_manager" (.atom (managerVal r)) := by
  obtain ⟨r, n, b, m, _⟩ := (inv_reached W hW ok s h i d hd).place
  exact ⟨r, n, b, m⟩

/-- C91. The root document of a document is the one above it, as long as no document above it is gone. -/
theorem C91_root (W : World) (hW : DefaultsOk W) (ok : Op → Prop) (s : State) (h : Reached W ok s) (i r n : Nat) (d : Doc)
    (hd : s.docs[i]? = some d) (hh : Held s i) (hb : Below s i r n) : Entry d.ctx "root_document" (.atom (docRef r)) := by
  obtain ⟨r', n', b, _, rest⟩ := (inv_reached W hW ok s h i d hd).place
  obtain ⟨rfl, rfl⟩ := below_unique hb b
  exact (rest hh).1

/-- C91. If no header or template gives them: the id of a document is its path in the project, its level is
how far it is below the root document, counting from 1, and only a root document is marked as one. -/
theorem C91_flags (W : World) (hW : DefaultsOk W) (s : State) (h : Reached W Clean s) (i r n : Nat) (d : Doc)
    (hd : s.docs[i]? = some d) (hh : Held s i) (hb : Below s i r n) :
    Entry d.ctx "doc_id" (.atom (.str (W.docId d.src))) ∧ Entry d.ctx "level" (.atom (.int (n + 1))) ∧
      ∃ b, Entry d.ctx "is_root_document" (.atom (.bool b)) ∧ (b = true ↔ i = r) := by
  have g := inv_reached W hW Clean s h i d hd
  have c : ∀ op, Clean op → Clean op := fun _ h => h
  obtain ⟨r', n', b, _, rest⟩ := g.place
  obtain ⟨rfl, rfl⟩ := below_unique hb b
  obtain ⟨h1, h2⟩ := (rest hh).2 c
  refine ⟨g.id c, h2, _, h1, ?_⟩
  cases hb with
  | root h3 hp => rw [hd] at h3; cases h3; simp [hp]
  | sub h3 hp b3 =>
    rw [hd] at h3; cases h3
    have : ∀ i r n, Below s i r n → r ≤ i := by
      intro i r n hb
      induction hb with
      | root _ _ => exact Nat.le_refl _
      | sub h hp _ ih => exact Nat.le_trans ih (Nat.le_of_lt ((inv_reached W hW Clean s ‹_› _ _ h).up _ hp))
    have h4 := g.up _ hp
    have h5 := this _ _ _ b3
    simp only [hp, Option.isNone_some, Bool.false_eq_true, false_iff]
    omega

/-- C91. Each loading of a document starts again: whatever was there before, unless its header or template gives
them, its paths are those of its template followed by its own, its id is its path, its body and modification time are those of the file, its level is one more
than what its parent has now, it is marked as a root document if it has no parent, and the entries that are not its own
are those its parent has now. -/
theorem C91_load (W : World) (hW : DefaultsOk W) (ok : Op → Prop) (s s' : State) (h : Reached W ok s) (i : Nat) (d : Doc)
    (hd : s.docs[i]? = some d) (m : Option Int) (b : Str) (tps : List Value) (t hdr : Dict Str Str)
    (e : step W s (.load i m b tps t hdr) = .ok s') :
    ∃ d', s'.docs[i]? = some d' ∧ d'.src = d.src ∧ d'.parent = d.parent ∧ ∀ k : String,
      t.get? k.toList = none → hdr.get? k.toList = none →
      (k = "paths" → Entry d'.ctx k (.list (tps ++ ownPaths W d.src))) ∧
      (k = "doc_id" → Entry d'.ctx k (.atom (.str (W.docId d.src)))) ∧
      (k = "body" → Entry d'.ctx k (.atom (.str b))) ∧
      (k = "mtime" → d'.ctx.get? k.toList = m.map fun t => .atom (.float t)) ∧
      (d.parent = none → (k = "level" → Entry d'.ctx k (.atom (.int 1))) ∧
        (k = "is_root_document" → Entry d'.ctx k (.atom (.bool true))) ∧
        (k ∉ reserved → k ∉ ["include", "includes", "short", "mtime", "builders", "body"] →
          d'.ctx.get? k.toList = W.defaults.get? k.toList)) ∧
      (∀ p dp, d.parent = some p → p ∉ s.gone → s.docs[p]? = some dp →
        (k = "level" → ∀ n, Entry dp.ctx k (.atom (.int n)) → Entry d'.ctx k (.atom (.int (n + 1)))) ∧
        (k = "is_root_document" → Entry d'.ctx k (.atom (.bool false))) ∧
        (k ∉ reserved → k ∉ ["include", "includes", "short", "mtime", "builders", "body"] →
          d'.ctx.get? k.toList = dp.ctx.get? k.toList)) ∧
      (k ∈ ["include", "includes", "short", "builders"] → d'.ctx.get? k.toList = none) := by
  have hs := inv_reached W hW ok s h
  have g := hs i d hd
  have hi := (List.getElem?_eq_some_iff.1 hd).1
  simp only [step, hd] at e
  cases hl : loadCtx W i d.src m b tps t hdr d.ctx (parentCtx W s d.parent) with
  | error er => rw [hl] at e; cases e
  | ok F' =>
    rw [hl] at e
    cases e
    have par := parent_ok W hW _ s hs d.parent (fun p hp => Nat.lt_trans (g.up p hp) hi)
    obtain ⟨F1, h1, lo, lb⟩ := loadCtx_parts W i d.src m b tps t hdr d.ctx _ F' hl
    have fa := docReset_facts W i d.src m _ _ F1 g.typed par.typed h1
    refine ⟨_, List.getElem?_set_self hi, rfl, rfl, ?_⟩
    intro k k1 k2
    have toL : ∀ {a c : String}, a ≠ c → a.toList ≠ c.toList := fun hne he => hne (String.toList_inj.1 he)
    have others : k ∉ reserved → k ∉ ["include", "includes", "short", "mtime", "builders", "body"] →
        F'.get? k.toList = (parentCtx W s d.parent).bind (fun p => p.get? k.toList) := by
      intro hr hn
      simp only [reserved, List.mem_cons, List.not_mem_nil, or_false, not_or] at hr hn
      obtain ⟨a1, a2, a3, a4, a5, a6, a7, a8, a9, a10, a11⟩ := hr
      obtain ⟨b1, b2, b3, b4, b5, b6⟩ := hn
      have h2 : k.toList ∉ ownKeys := by
        simp only [ownKeys, List.mem_cons, List.not_mem_nil, or_false, not_or]
        exact ⟨toL a2, toL a3, toL b4, toL a4, toL a5, toL a6, toL a7, toL a8⟩
      have h3 : k.toList ∉ cls.exclude := by
        simp only [cls, List.mem_cons, List.not_mem_nil, or_false, not_or]
        exact ⟨toL a1, toL a6, toL a9, toL a8⟩
      have h4 : k.toList ∉ (initial W).keys := by
        rw [initial_keys]
        simp only [List.mem_cons, List.not_mem_nil, or_false, not_or]
        exact ⟨toL a10, toL a11, toL a9⟩
      have h5 : k.toList ∉ cls.doNotInherit := by
        simp only [cls, List.mem_cons, List.not_mem_nil, or_false, not_or]
        exact ⟨toL a1, toL b1, toL b2, toL b3, toL a3, toL b4, toL a8, toL b5, toL b6⟩
      rw [lo.missing _ (toL (Ne.symm b6)) (toL (Ne.symm a8)) k1 k2, fa.others _ h2 h3 h4, if_neg h5]
    refine ⟨?_, ?_, ?_, ?_, ?_, ?_, ?_⟩
    · rintro rfl; exact lo.cleanPaths _ fa.paths k1 k2
    · rintro rfl; exact (lo.missing _ (by decide) (by decide) k1 k2).trans fa.id
    · rintro rfl; exact lb k1 k2
    · rintro rfl; exact (lo.missing _ (by decide) (by decide) k1 k2).trans fa.mtime
    · intro hp
      rw [hp] at par others fa
      obtain ⟨p, e, l1, l2, l3⟩ := par.root rfl
      refine ⟨?_, ?_, ?_⟩
      · rintro rfl; exact (lo.missing _ (by decide) (by decide) k1 k2).trans (fa.newLevel (by rw [e]; exact l2))
      · rintro rfl; exact (lo.missing _ (by decide) (by decide) k1 k2).trans (fa.newRoot (by rw [e]; exact l1)).2
      · intro hr hn; exact others hr hn
    · intro p dp hp hg hdp
      obtain ⟨dq, hq, gq, eq⟩ := par.sub p hp hg
      rw [hdp] at hq; cases hq
      refine ⟨?_, ?_, ?_⟩
      · rintro rfl n hn
        exact (lo.missing _ (by decide) (by decide) k1 k2).trans (fa.oldLevel n (by rw [eq]; exact hn))
      · rintro rfl
        obtain ⟨j, hj⟩ := gq.rootref
        exact (lo.missing _ (by decide) (by decide) k1 k2).trans (fa.oldRoot j (by rw [eq]; exact hj)).2
      · intro hr hn
        rw [others hr hn, eq]; rfl
    · intro hk
      simp only [List.mem_cons, List.not_mem_nil, or_false] at hk
      have : ∀ k : Str, k ∈ ["include".toList, "includes".toList, "short".toList, "builders".toList] → F1.get? k = none := by
        intro k hk
        simp only [List.mem_cons, List.not_mem_nil, or_false] at hk
        rcases hk with rfl | rfl | rfl | rfl <;>
        · rw [fa.others _ (by decide) (by decide) (by rw [initial_keys]; decide), if_pos (by decide)]
      rcases hk with rfl | rfl | rfl | rfl
      · exact (lo.missing _ (by decide) (by decide) k1 k2).trans (this _ (by decide))
      · exact (lo.missing _ (by decide) (by decide) k1 k2).trans (this _ (by decide))
      · exact (lo.missing _ (by decide) (by decide) k1 k2).trans (this _ (by decide))
      · exact (lo.missing _ (by decide) (by decide) k1 k2).trans (this _ (by decide))

/-- The conversions of the example meet the condition of the next theorem. -/
example : TextConverts sampleWorld.P := samplePy_converts

/-- C91. No header can make the loading of a context fail, and a document can always be created: if texts are read as
numbers or are not, every event is carried out. -/
theorem C91_total (W : World) (hW : DefaultsOk W) (hP : TextConverts W.P) (ok : Op → Prop) (s : State) (h : Reached W ok s)
    (op : Op) (ha : Allowed s op) : ∃ s', step W s op = .ok s' := by
  have hs := inv_reached W hW ok s h
  have reset : ∀ i src m F parent, (∀ p, parent = some p → p < s.docs.length) → Typed F →
      (F.get? "paths".toList = none ∨ ∃ l, F.get? "paths".toList = some (.list l)) →
      ∃ F', docReset W i src m F (parentCtx W s parent) = .ok F' := by
    intro i src m F parent hp hF hpaths
    have par := parent_ok W hW _ s hs parent hp
    obtain ⟨F0, h0⟩ := freset_total W F _ hF par.typed
    have hn : ∀ p, parentCtx W s parent = some p → p.keys.Nodup := fun p hp => (par.typed p hp).nodup
    refine docReset_total W i src m F _ F0 h0 ?_ ?_ ?_
    · rw [freset_inherited W F _ hn F0 h0 _ (by decide) (by decide) (by rw [initial_keys]; decide)]
      cases hpc : parentCtx W s parent with
      | none => exact .inl rfl
      | some p => exact (par.typed p hpc).level
    · rw [freset_kept W F _ hn F0 h0 _ (by decide) (by decide) (by rw [initial_keys]; decide)]; exact hpaths
    · exact freset_initial W F _ hn F0 h0 _ 1 W.root (by decide) rfl hF.proot (fun p hp => (par.typed p hp).proot)
  cases op with
  | create parent src m =>
    obtain ⟨F', hF'⟩ := reset s.docs.length src m _ parent (fun p hp => (ha p hp).1) (typed_new s.docs.length) (.inl rfl)
    exact ⟨_, by simp only [step, newCtx, hF', bind, Except.bind]; rfl⟩
  | load i m b tps t hdr =>
    cases hd : s.docs[i]? with
    | none => exact ⟨s, by simp only [step, hd]⟩
    | some d =>
      have hi := (List.getElem?_eq_some_iff.1 hd).1
      have g := hs i d hd
      obtain ⟨pre, hpre⟩ := g.paths
      obtain ⟨F1, h1⟩ := reset i d.src m d.ctx d.parent (fun p hp => Nat.lt_trans (g.up p hp) hi) g.typed (.inr ⟨_, hpre⟩)
      have par := parent_ok W hW _ s hs d.parent (fun p hp => Nat.lt_trans (g.up p hp) hi)
      have fa := docReset_facts W i d.src m _ _ F1 g.typed par.typed h1
      have h3 : ∃ F3, prependPaths tps (F1.set "body".toList (.atom (.str b))) = .ok F3 := by
        unfold prependPaths
        rw [set_other _ _ _ _ (by decide), fa.paths]
        exact ⟨_, rfl⟩
      obtain ⟨F3, h3⟩ := h3
      obtain ⟨F4, h4⟩ := text_total W.P hP cls.replace t (texts t).keys F3
      obtain ⟨F5, h5⟩ := text_total W.P hP cls.replace hdr (texts hdr).keys F4
      have : loadCtx W i d.src m b tps t hdr d.ctx (parentCtx W s d.parent) = .ok F5 := by
        unfold loadCtx
        rw [h1]
        simp only [bind, Except.bind]
        rw [h3]
        simp only
        rw [h4]
        exact h5
      exact ⟨_, by simp only [step, hd, this, bind, Except.bind]; rfl⟩
  | set i k v =>
    cases hd : s.docs[i]? with
    | none => exact ⟨s, by simp only [step, hd]⟩
    | some d => exact ⟨_, by simp only [step, hd]; rfl⟩
  | drop i => exact ⟨_, rfl⟩

/-! ### Entries that are None -/

/-- A project whose default context names the entry for the root document without giving one. -/
def noneWorld : World :=
  { sampleWorld with defaults := ("root_document".toList, .atom .none) :: sampleWorld.defaults }

example : noneWorld.defaults.keys.Nodup ∧ noneWorld.defaults.get? "root_document".toList = some (.atom .none) ∧
    (step noneWorld ⟨[], []⟩ (.create none 10 (some 3))).toOption.isSome = true := by
  decide +kernel

/-- A root document is its own root document when the default context has the entry with the value None, as it is when the
default context does not have the entry. -/
theorem C91_none (W : World) (hn : W.defaults.keys.Nodup) (s s' : State) (src : Nat) (mtime : Option Int)
    (h : W.defaults.get? "root_document".toList = some (.atom .none) ∨ W.defaults.get? "root_document".toList = none)
    (e : step W s (.create none src mtime) = .ok s') :
    ∃ d, s'.docs = s.docs ++ [d] ∧ d.src = src ∧
      d.ctx.get? "root_document".toList = some (.atom (docRef s.docs.length)) ∧
      d.ctx.get? "is_root_document".toList = some (.atom (.bool true)) := by
  simp only [step, newCtx, parentCtx, bind, Except.bind] at e
  split at e
  · cases e
  · rename_i F hF
    cases e
    obtain ⟨F0, h0, A⟩ := docReset_after _ _ _ _ _ _ _ hF
    have hr := freset_inherited W _ (some W.defaults) (fun p hp => by cases hp; exact hn) F0 h0 "root_document".toList
      (by decide) (by decide) (by rw [initial_keys]; decide)
    have hr' : F0.get? "root_document".toList = W.defaults.get? "root_document".toList := hr
    have := A.newRoot (by unfold isNone; rw [hr']; rcases h with h | h <;> rw [h])
    exact ⟨_, rfl, rfl, this.1, this.2⟩

/-! ### What is not so -/

/-- Finding: a sub-document is moved: document 0 included 1, which included 2; now 0 includes 2 itself and not 1. Document 2
is kept, but its context still inherits from that of document 1, which is gone. At its next loading document 2 is a root
document, at level 1, without targets. So the root document of `C91_root` needs the documents above. -/
theorem C91_moved_refuted :
    entriesOf (run sampleWorld ⟨[], []⟩ (sampleOps ++ [.drop 1, .load 2 (some 6) "last".toList [] [] []])) 2
      ["root_document", "is_root_document", "level", "targets", "label_manager"] =
    some [some (.atom (docRef 2)), some (.atom (.bool true)), some (.atom (.int 1)), none, some (.atom (managerVal 0))] := by
  decide +kernel

/-- Finding: a header that gives a `level` changes the levels of the documents below it. -/
theorem C91_level_refuted :
    entriesOf (run sampleWorld ⟨[], []⟩ [.create none 10 (some 3), .load 0 (some 3) [] [] [] [("level".toList, "7".toList)],
      .create (some 0) 11 (some 4)]) 1 ["level"] = some [some (.atom (.int 8))] := by
  decide +kernel

end Verif.DocContext
