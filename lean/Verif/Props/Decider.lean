import Verif.Lemmas.Decider

/-!
# C20, C21, C22: deciding on a rebuild
-/

namespace Verif.Decider

open Verif

/-! ### A concrete setting for the checks -/

/-- A toy hash of length 4. -/
def toyH (b : Bytes) : Bytes := [UInt8.ofNat b.length, b.headD 0, b.getLast?.getD 0, b.foldl (· * 3 + ·) 7]

def toy : Cfg where
  H := toyH
  chunks := readChunks 2
  starters := [[47, 73]]
  isPdf p := p = "o.pdf".toList
  str
    | .path p => p.length
    | .other b => b.length

def toyFS : FS := fun p =>
  if p = "a".toList then some [1, 2] else if p = "b".toList then some [3] else if p = "o".toList then some [9, 9, 9]
  else if p = "o.pdf".toList then some [1, 10, 47, 73, 5, 10, 2] else none

/-! ### C22 -/

/-- C22. The lines `line_splitter` yields are the lines of the file, however the file is cut into chunks; what
follows the last newline is a line unless it is empty. -/
theorem C22_lines (nl : UInt8) (chunks : List Bytes) (ls : List Bytes) (last : Bytes)
    (h : IsLines nl chunks.flatten ls last) :
    lineSplitter nl [] chunks = ls ++ if last = [] then [] else [last] :=
  lineSplitter_spec nl chunks [] (by simp) ls last (by simpa using h)

/-- Every file has lines, and only one way to have them. -/
theorem C22_lines_exist (nl : UInt8) (s : Bytes) :
    ∃ ls last, IsLines nl s ls last ∧ ∀ ls' last', IsLines nl s ls' last' → ls' = ls ∧ last' = last := by
  obtain ⟨ls, last, _, h⟩ := splitByte_spec nl s
  exact ⟨ls, last, h, fun ls' last' h' => isLines_unique nl s ls' ls last' last h' h⟩

/-- C22. The hashed text of a pdf is that of its lines other than the skipped ones, for any positive chunk size. -/
theorem C22_pdf (starters : List Bytes) (n : Nat) (hn : n > 0) (content : Bytes) (ls : List Bytes) (last : Bytes)
    (h : IsLines newline content ls last) :
    pdfFed starters (readChunks n content) =
      ((ls ++ [last]).filter fun l => ¬ ∃ s ∈ starters, s <+: l).flatten := by
  unfold pdfFed
  rw [C22_lines newline _ ls last (by rw [readChunks_flatten n hn]; exact h)]
  have hf : (fun l => !skipped starters l) = fun l => decide (¬ ∃ s ∈ starters, s <+: l) := by
    funext l
    simp only [skipped]
    by_cases hx : ∃ s ∈ starters, s <+: l
    · have : (starters.any fun s => s.isPrefixOf l) = true := by
        obtain ⟨s, h1, h2⟩ := hx
        exact List.any_eq_true.2 ⟨s, h1, List.isPrefixOf_iff_prefix.2 h2⟩
      simp [this, hx]
    · have : (starters.any fun s => s.isPrefixOf l) = false := by
        rw [Bool.eq_false_iff]
        intro h
        obtain ⟨s, h1, h2⟩ := List.any_eq_true.1 h
        exact hx ⟨s, h1, List.isPrefixOf_iff_prefix.1 h2⟩
      simp only [this, Bool.not_false, hx, not_false_eq_true, decide_true]
  rw [hf, List.filter_append, List.filter_append, List.flatten_append, List.flatten_append]
  congr 1
  by_cases hl : last = []
  · subst hl
    simp only [if_true, List.filter_nil, List.flatten_nil, List.filter_cons]
    split <;> simp
  · rw [if_neg hl]

/-- C22. What counts of an input: all of a file that is no pdf, the lines of a pdf other than the skipped ones, and
the bytes of anything else. -/
theorem C22_what_counts (c : Cfg) (n : Nat) (hn : n > 0) (hc : c.chunks = readChunks n) (fs : FS) :
    (∀ b, c.fed fs (.other b) = some b) ∧
    (∀ p, fs p = none → c.fed fs (.path p) = none) ∧
    (∀ p content, fs p = some content → c.isPdf p = false → c.fed fs (.path p) = some content) ∧
    (∀ p content ls last, fs p = some content → c.isPdf p = true → IsLines newline content ls last →
      c.fed fs (.path p) = some ((ls ++ [last]).filter fun l => ¬ ∃ s ∈ c.starters, s <+: l).flatten) := by
  refine ⟨fun _ => rfl, ?_, ?_, ?_⟩
  · intro p hp; simp [Cfg.fed, hp]
  · intro p content hp hpdf; simp [Cfg.fed, hp, hpdf, hc, fileFed, readChunks_flatten n hn]
  · intro p content ls last hp hpdf hl
    simp only [Cfg.fed, hp, hpdf, Option.map_some, if_true, hc, C22_pdf c.starters n hn content ls last hl]

/-- C22. The digest of a file, pdf or not, does not depend on the chunk size. -/
theorem C22_chunk_size (c : Cfg) (n m : Nat) (hn : n > 0) (hm : m > 0) (fs : FS) (items : List Item) :
    { c with chunks := readChunks n }.hashItems fs items = { c with chunks := readChunks m }.hashItems fs items := by
  have h : ∀ it, { c with chunks := readChunks n }.fed fs it = { c with chunks := readChunks m }.fed fs it := by
    intro it
    cases it with
    | other b => rfl
    | path p =>
      simp only [Cfg.fed]
      cases fs p with
      | none => rfl
      | some content =>
        simp only [Option.map_some, fileFed, readChunks_flatten n hn, readChunks_flatten m hm]
        obtain ⟨ls, last, h, _⟩ := C22_lines_exist newline content
        unfold pdfFed
        rw [C22_lines newline _ ls last (by rw [readChunks_flatten n hn]; exact h),
          C22_lines newline _ ls last (by rw [readChunks_flatten m hm]; exact h)]
  unfold Cfg.hashItems
  simp only [funext h]

example : pdfFed [[47, 73]] (readChunks 2 [1, 10, 47, 73, 5, 10, 2]) = [1, 2] := by decide
example : IsLines newline [1, 10, 47, 73, 5, 10, 2] [[1], [47, 73, 5]] [2] := by
  refine ⟨by decide, ?_, by decide⟩; decide

/-- Finding: line breaks are not hashed, so two pdf files that differ in line breaks only get one digest. -/
theorem C22_line_breaks_ignored (starters : List Bytes) (hs : ∀ s ∈ starters, s = [47, 73]) :
    pdfFed starters (readChunks 4096 [1, 10, 2]) = pdfFed starters (readChunks 4096 [1, 2]) := by
  have h1 : (readChunks 4096 [1, 10, 2]) = [[1, 10, 2]] := by decide
  have h2 : (readChunks 4096 [1, 2]) = [[1, 2]] := by decide
  have l1 : lineSplitter newline [] [[1, 10, 2]] = [[1], [2]] := by decide
  have l2 : lineSplitter newline [] [[1, 2]] = [[1, 2]] := by decide
  have hsk : ∀ l ∈ [[1], [2], [1, 2]], skipped starters l = false := by
    intro l hl
    rw [Bool.eq_false_iff]
    intro h
    obtain ⟨s, hs1, hs2⟩ := List.any_eq_true.1 h
    rw [hs s hs1] at hs2
    clear h
    revert l
    decide
  unfold pdfFed
  rw [h1, h2, l1, l2]
  simp [hsk]

/-! ### C21 -/

/-- C21. The digests do not depend on the order of the inputs. -/
theorem C21_order (c : Cfg) (fs : FS) (inputs inputs' : List Item) (output : Item) (h : inputs.Perm inputs') :
    c.calculateHash fs inputs output = c.calculateHash fs inputs' output := by
  unfold Cfg.calculateHash
  rw [hashItems_perm c fs _ _ ((sortedBy_perm c.str inputs).trans (h.trans (sortedBy_perm c.str inputs').symm))]

/-- C21, in terms of the model: two lists of inputs get one digest exactly if they have the same contents, as long as the hash function
does not collide on the texts it is used for. -/
theorem different_model (c : Cfg) (fs fs' : FS) (is is' : List Item) (d d' : Bytes) (h : c.hashItems fs is = some d)
    (h' : c.hashItems fs' is' = some d') (hc : NoCollision c.H (c.texts fs is ++ c.texts fs' is')) :
    d = d' ↔ SameFed c fs is fs' is' := by
  unfold Cfg.hashItems at h h'
  cases hm : is.mapM (c.fed fs) with
  | none => rw [hm] at h; simp at h
  | some bs =>
    cases hm' : is'.mapM (c.fed fs') with
    | none => rw [hm'] at h'; simp at h'
    | some bs' =>
      rw [hm] at h; rw [hm'] at h'
      simp only [Option.map_some, Option.some.injEq] at h h'
      subst h; subst h'
      have ht : c.texts fs is = (sortBytes (bs.map c.H)).flatten :: bs := by
        simp only [Cfg.texts, filterMap_of_mapM c fs is bs hm]
      have ht' : c.texts fs' is' = (sortBytes (bs'.map c.H)).flatten :: bs' := by
        simp only [Cfg.texts, filterMap_of_mapM c fs' is' bs' hm']
      rw [ht, ht'] at hc
      unfold SameFed
      rw [(mapM_perm_map _ _ _).1 hm, (mapM_perm_map _ _ _).1 hm']
      obtain ⟨n, hn, hlen⟩ := hc.len
      constructor
      · intro he
        have e1 := hc.inj _ (by simp) _ (by simp) he
        have hl1 : ∀ x ∈ sortBytes (bs.map c.H), x.length = n := by
          intro x hx
          obtain ⟨y, hy, rfl⟩ := List.mem_map.1 ((sortBytes_perm _).mem_iff.1 hx)
          exact hlen y (by simp [hy])
        have hl2 : ∀ x ∈ sortBytes (bs'.map c.H), x.length = n := by
          intro x hx
          obtain ⟨y, hy, rfl⟩ := List.mem_map.1 ((sortBytes_perm _).mem_iff.1 hx)
          exact hlen y (by simp [hy])
        have e2 := (sortBytes_eq_iff _ _).1 (flatten_inj n hn _ _ hl1 hl2 e1)
        -- undo the hash
        refine List.Perm.map some ?_
        have key : ∀ (bs bs' : List Bytes), (∀ x ∈ bs, ∀ y ∈ bs', c.H x = c.H y → x = y) →
            (bs.map c.H).Perm (bs'.map c.H) → bs.Perm bs' := by
          intro bs
          induction bs with
          | nil => intro bs' _ hp; simp at hp; rw [hp]
          | cons b bs ih =>
            intro bs' hi hp
            have hb : c.H b ∈ bs'.map c.H := hp.mem_iff.1 (by simp)
            obtain ⟨b', hb', heq⟩ := List.mem_map.1 hb
            have : b = b' := hi b (by simp) b' hb' heq.symm
            subst this
            obtain ⟨s, t, rfl⟩ := List.append_of_mem hb'
            have hp2 : (bs.map c.H).Perm ((s ++ t).map c.H) := by
              have h3 : ((s ++ b :: t).map c.H).Perm ((b :: (s ++ t)).map c.H) := List.perm_middle.map _
              have := hp.trans h3
              simpa using this
            have := ih (s ++ t) (fun x hx y hy => hi x (by simp [hx]) y (by
              rcases List.mem_append.1 hy with hy | hy <;> simp [hy])) hp2
            exact (this.cons b).trans List.perm_middle.symm
        exact key bs bs' (fun x hx y hy => hc.inj x (by simp [hx]) y (by simp [hy])) e2
      · intro hp
        have : bs.Perm bs' := by
          have := hp.filterMap id
          simpa [List.filterMap_map] using this
        rw [sortBytes_congr _ _ (this.map c.H)]

example : NoCollision toyH (toy.texts toyFS [.path "a".toList, .other [5]] ++ toy.texts toyFS [.path "b".toList]) where
  inj := by decide
  len := ⟨4, by decide, by intro x _; rfl⟩

/-- Finding: a file and a text with the same contents are the same input, whatever the name of the file. -/
theorem C21_names_ignored (c : Cfg) (fs : FS) (p : Str) (b : Bytes) (hp : c.isPdf p = false)
    (hf : fs p = some b) (hc : (c.chunks b).flatten = b) (rest : List Item) :
    c.hashItems fs (.path p :: rest) = c.hashItems fs (.other b :: rest) := by
  have : c.fed fs (.path p) = c.fed fs (.other b) := by simp [Cfg.fed, hf, hp, fileFed, hc]
  unfold Cfg.hashItems
  rw [List.mapM_cons, List.mapM_cons, this]

/-! ### C20 -/

/-- C20. A missing input or output always asks for a build, and nothing is recorded. -/
theorem C20_missing (c : Cfg) (fs : FS) (db : Dict Bytes Bytes) (inputs : List Item) (output : Item) (reset : Bool)
    (hne : inputs ≠ []) (p : Str) (hp : Item.path p ∈ output :: inputs) (hf : fs p = none) :
    c.buildNeeded fs db inputs output reset = some (true, db) := by
  have : filesMissing fs inputs output = some true := by
    unfold filesMissing
    rw [if_neg hne]
    by_cases h1 : inputs.any (missing fs) = true
    · rw [if_pos h1]
    · rw [if_neg h1, if_pos]
      rcases List.mem_cons.1 hp with h | h
      · rw [← h]; simp [missing, hf]
      · exact absurd (List.any_eq_true.2 ⟨_, h, by simp [missing, hf]⟩) h1
  simp [Cfg.buildNeeded, this]

example : toy.buildNeeded toyFS [] [.path "a".toList, .path "gone".toList] (.path "o".toList) true = some (true, []) := by
  decide

/-- In terms of the model. With all files there, the answer after any history is "no" exactly if the last record made for
inputs with the present digest was for an output with the present digest. -/
theorem exact_model (c : Cfg) (fs0 : FS) (es : List Event) (inputs : List Item) (output : Item) (i o : Bytes)
    (hm : filesMissing (c.run (fs0, []) es).1 inputs output = some false)
    (hd : c.calculateHash (c.run (fs0, []) es).1 inputs output = some (i, o)) :
    c.buildNeeded (c.run (fs0, []) es).1 (c.run (fs0, []) es).2 inputs output false =
        some (false, (c.run (fs0, []) es).2) ↔
      ∃ pre e post, es = pre ++ e :: post ∧ Logs c (c.run (fs0, []) pre).1 e i o ∧
        ∀ pre' e' post' o', post = pre' ++ e' :: post' → ¬ Logs c (c.run (fs0, []) (pre ++ e :: pre')).1 e' i o' := by
  have h := run_db c (fs0, []) es i o
  simp only [Dict.get?_nil, reduceCtorEq, false_and, or_false] at h
  refine Iff.trans ?_ h
  simp [Cfg.buildNeeded, hm, hd]

/-- In terms of the model. A recorded build is not repeated: after the record, and whatever happens to other files and whatever other
builders do, no build is needed while the contents of inputs and output are as they were. Partial: no other builder
may record the same inputs with another output. -/
theorem not_repeated_model (c : Cfg) (st : FS × Dict Bytes Bytes) (inputs inputs' : List Item) (output : Item)
    (i o : Bytes) (hperm : inputs'.Perm inputs) (hrec : Logs c st.1 (.call inputs output true) i o) (es : List Event)
    (hsame : ∀ p, Item.path p ∈ output :: inputs →
      (c.run (c.step st (.call inputs output true)) es).1 p = st.1 p)
    (hothers : ∀ pre e post o', es = pre ++ e :: post →
      Logs c (c.run (c.step st (.call inputs output true)) pre).1 e i o' → o' = o) :
    c.buildNeeded (c.run (c.step st (.call inputs output true)) es).1
        (c.run (c.step st (.call inputs output true)) es).2 inputs' output false =
      some (false, (c.run (c.step st (.call inputs output true)) es).2) := by
  obtain ⟨hm, hd⟩ := hrec
  generalize hst : c.step st (.call inputs output true) = st1 at *
  have hdb : st1.2.get? i = some o := by
    rw [← hst]
    simp [Cfg.step, Cfg.buildNeeded, hm, hd, Dict.get?_set_self]
  generalize hend : c.run st1 es = st2 at *
  have hget : st2.2.get? i = some o := by
    rw [← hend]
    have key : ∀ es, (∀ pre e post o', es = pre ++ e :: post → Logs c (c.run st1 pre).1 e i o' → o' = o) →
        (c.run st1 es).2.get? i = some o := by
      intro es
      induction es using List.reverseRecOn with
      | nil => intro _; exact hdb
      | append_singleton es e ih =>
        intro ho
        have h1 := ih fun pre e' post o' h => ho pre e' (post ++ [e]) o' (by rw [h]; simp)
        rw [run_snoc]
        rcases step_db c (c.run st1 es).1 (c.run st1 es).2 e with ⟨i', o', hr, he⟩ | ⟨_, he⟩
        · rw [show c.step (c.run st1 es) e = c.step ((c.run st1 es).1, (c.run st1 es).2) e from rfl, he, Dict.get?_set]
          by_cases hi : i' = i
          · subst hi; rw [if_pos rfl, ho es e [] o' rfl hr]
          · rw [if_neg hi, h1]
        · rw [show c.step (c.run st1 es) e = c.step ((c.run st1 es).1, (c.run st1 es).2) e from rfl, he, h1]
    exact key es hothers
  have hmiss : ∀ it ∈ output :: inputs, missing st2.1 it = missing st.1 it := by
    intro it hit
    cases it with
    | other b => rfl
    | path p => simp [missing, hsame p hit]
  have hfed : ∀ it ∈ output :: inputs, c.fed st2.1 it = c.fed st.1 it := by
    intro it hit
    cases it with
    | other b => rfl
    | path p => simp [Cfg.fed, hsame p hit]
  have hany : inputs'.any (missing st2.1) = inputs.any (missing st.1) := by
    rw [Bool.eq_iff_iff, List.any_eq_true, List.any_eq_true]
    constructor
    · rintro ⟨x, hx, h⟩
      have hx := hperm.mem_iff.1 hx
      exact ⟨x, hx, by rw [← hmiss x (by simp [hx])]; exact h⟩
    · rintro ⟨x, hx, h⟩
      exact ⟨x, hperm.mem_iff.2 hx, by rw [hmiss x (by simp [hx])]; exact h⟩
  have hne : inputs' = [] ↔ inputs = [] := by
    constructor
    · rintro rfl; exact hperm.nil_eq.symm
    · rintro rfl; exact hperm.eq_nil
  have hm' : filesMissing st2.1 inputs' output = some false := by
    rw [← hm]
    unfold filesMissing
    rw [hany, hmiss output (by simp)]
    simp only [hne]
  have hd' : c.calculateHash st2.1 inputs' output = some (i, o) := by
    rw [C21_order c st2.1 inputs' inputs output hperm, ← hd]
    have hmap : ∀ (l : List Item), (∀ it ∈ l, it ∈ output :: inputs) → c.hashItems st2.1 l = c.hashItems st.1 l := by
      intro l hl
      unfold Cfg.hashItems
      congr 1
      induction l with
      | nil => rfl
      | cons a l ih =>
        rw [List.mapM_cons, List.mapM_cons, hfed a (hl a (by simp)), ih fun it hit => hl it (by simp [hit])]
    unfold Cfg.calculateHash
    rw [hmap _ (fun it hit => List.mem_cons_of_mem _ ((mem_sortedBy _ _ _).1 hit)), hmap [output] (by simp)]
  simp [Cfg.buildNeeded, hm', hd', hget]

example : ∃ i o, Logs toy toyFS (.call [.path "a".toList, .other [5]] (.path "o".toList) true) i o :=
  ⟨_, _, ⟨by decide, rfl⟩⟩

/-- The hypotheses of `C20_change` are met: after a build is recorded, none is needed. -/
example : (toy.buildNeeded (toy.run (toyFS, []) [.call [.path "a".toList, .other [5]] (.path "o".toList) true]).1
    (toy.run (toyFS, []) [.call [.path "a".toList, .other [5]] (.path "o".toList) true]).2
    [.other [5], .path "a".toList] (.path "o".toList) false).map Prod.fst = some false := by decide

/-- Finding: two builders with the same inputs and different outputs keep invalidating each other: once both are
recorded, the first needs a build again although nothing changed. -/
theorem shared_inputs_model (c : Cfg) (fs : FS) (db : Dict Bytes Bytes) (inputs : List Item) (out1 out2 : Item)
    (i o1 o2 : Bytes) (h1 : Logs c fs (.call inputs out1 true) i o1)
    (h2 : Logs c fs (.call inputs out2 true) i o2) (hne : o1 ≠ o2) :
    (c.buildNeeded fs (c.run (fs, db) [.call inputs out1 true, .call inputs out2 true]).2 inputs out1 false).map
      Prod.fst = some true := by
  have hne' : ¬ o2 = o1 := fun h => hne h.symm
  simp [Cfg.run, Cfg.step, Cfg.buildNeeded, h1.1, h1.2, h2.1, h2.2, Dict.get?_set_self, hne']

example : (toy.buildNeeded toyFS
    (toy.run (toyFS, []) [.call [.path "a".toList] (.path "b".toList) true, .call [.path "a".toList] (.path "o".toList) true]).2
    [.path "a".toList] (.path "b".toList) false).map Prod.fst = some true := by decide

/-! ### The theorems in terms of contents -/

theorem filesMissing_iff (fs : FS) (inputs : List Item) (output : Item) :
    filesMissing fs inputs output = some false ↔ AllThere fs inputs output := by
  have hmiss : ∀ it, missing fs it = false ↔ ∀ p, Item.path p = it → fs p ≠ none := by
    intro it
    cases it with
    | other b => simp [missing]
    | path p =>
      simp only [missing, Option.isNone_eq_false_iff, Item.path.injEq]
      constructor
      · rintro h q rfl e; rw [e] at h; simp at h
      · intro h
        cases hp : fs p with
        | none => exact absurd hp (h p rfl)
        | some x => rfl
  unfold filesMissing AllThere
  by_cases hne : inputs = []
  · simp [hne]
  · rw [if_neg hne]
    cases h1 : inputs.any (missing fs) with
    | true =>
      obtain ⟨it, hit, hm⟩ := List.any_eq_true.1 h1
      simp only [if_true, Option.some.injEq, Bool.true_eq_false, false_iff, not_and]
      intro _ h
      have := (hmiss it).2 (fun p hp => h p (by simp [hp, hit]))
      rw [this] at hm; simp at hm
    | false =>
      have hall : ∀ it ∈ inputs, missing fs it = false := by
        intro it hit
        cases hm : missing fs it with
        | false => rfl
        | true => rw [List.any_eq_true.2 ⟨it, hit, hm⟩] at h1; simp at h1
      simp only [Bool.false_eq_true, if_false]
      cases h2 : missing fs output with
      | true =>
        simp only [if_true, Option.some.injEq, Bool.true_eq_false, false_iff, not_and]
        intro _ h
        have := (hmiss output).2 (fun p hp => h p (by simp [hp]))
        rw [this] at h2; simp at h2
      | false =>
        simp only [Bool.false_eq_true, if_false, true_iff]
        refine ⟨hne, ?_⟩
        intro p hp
        rcases List.mem_cons.1 hp with hp | hp
        · exact (hmiss output).1 h2 p hp
        · exact (hmiss _).1 (hall _ hp) p rfl

theorem calculateHash_iff (c : Cfg) (fs : FS) (inputs : List Item) (output : Item) (i o : Bytes) :
    c.calculateHash fs inputs output = some (i, o) ↔ c.hashItems fs inputs = some i ∧ c.hashItems fs [output] = some o := by
  unfold Cfg.calculateHash
  rw [hashItems_perm c fs _ _ (sortedBy_perm c.str inputs)]
  cases c.hashItems fs inputs <;> cases c.hashItems fs [output] <;> simp

theorem logs_iff (c : Cfg) (fs : FS) (e : Event) (i o : Bytes) : Logs c fs e i o ↔ Records c fs e i o := by
  constructor
  · intro h
    cases e with
    | files fs' => exact h.elim
    | call inputs output reset =>
      cases reset with
      | false => exact h.elim
      | true => exact .call inputs output i o ((filesMissing_iff _ _ _).1 h.1) ((calculateHash_iff _ _ _ _ _ _).1 h.2).1 ((calculateHash_iff _ _ _ _ _ _).1 h.2).2
  · rintro ⟨inputs, output, _, _, h1, h2, h3⟩
    exact ⟨(filesMissing_iff _ _ _).2 h1, (calculateHash_iff _ _ _ _ _ _).2 ⟨h2, h3⟩⟩

theorem counts_iff (c : Cfg) (n : Nat) (hn : n > 0) (hc : c.chunks = readChunks n) (fs : FS) (it : Item) (t : Bytes) :
    c.fed fs it = some t ↔ Counts c fs it t := by
  obtain ⟨w1, w2, w3, w4⟩ := C22_what_counts c n hn hc fs
  constructor
  · intro h
    cases it with
    | other b => rw [w1] at h; cases h; exact .other _
    | path p =>
      cases hp : fs p with
      | none => rw [w2 p hp] at h; cases h
      | some s =>
        cases hpdf : c.isPdf p with
        | false => rw [w3 p s hp hpdf] at h; cases h; exact .file p _ hp hpdf
        | true =>
          obtain ⟨ls, last, hl, _⟩ := C22_lines_exist newline s
          rw [w4 p s ls last hp hpdf hl] at h; cases h
          exact .pdf p s ls last hp hpdf hl
  · intro h
    cases h with
    | other => exact w1 _
    | file p s hp hpdf => exact w3 p _ hp hpdf
    | pdf p s ls last hp hpdf hl => exact w4 p s ls last hp hpdf hl

theorem allCount_iff (c : Cfg) (n : Nat) (hn : n > 0) (hc : c.chunks = readChunks n) (fs : FS) (is : List Item) (ts : List Bytes) :
    is.mapM (c.fed fs) = some ts ↔ AllCount c fs is ts := by
  induction is generalizing ts with
  | nil =>
    constructor
    · intro h; cases h; exact .nil
    · intro h; cases h; rfl
  | cons it is ih =>
    rw [List.mapM_cons]
    constructor
    · intro h
      cases hf : c.fed fs it with
      | none => rw [hf] at h; cases h
      | some t =>
        cases hm : is.mapM (c.fed fs) with
        | none => rw [hf, hm] at h; cases h
        | some ts' =>
          rw [hf, hm] at h; cases h
          exact .cons it t is ts' ((counts_iff c n hn hc fs it t).1 hf) ((ih ts').1 hm)
    · intro h
      cases h with
      | cons _ t _ ts' h1 h2 => rw [(counts_iff c n hn hc fs it t).2 h1, (ih ts').2 h2]; rfl

theorem sameFed_iff (c : Cfg) (n : Nat) (hn : n > 0) (hc : c.chunks = readChunks n) (fs fs' : FS) (is is' : List Item) (d d' : Bytes)
    (h : c.hashItems fs is = some d) (h' : c.hashItems fs' is' = some d') : SameFed c fs is fs' is' ↔ SameContents c fs is fs' is' := by
  unfold Cfg.hashItems at h h'
  cases hm : is.mapM (c.fed fs) with
  | none => rw [hm] at h; cases h
  | some ts =>
    cases hm' : is'.mapM (c.fed fs') with
    | none => rw [hm'] at h'; cases h'
    | some ts' =>
      unfold SameFed
      rw [(mapM_perm_map _ _ _).1 hm, (mapM_perm_map _ _ _).1 hm']
      constructor
      · intro hp
        refine ⟨ts, ts', (allCount_iff c n hn hc _ _ _).1 hm, (allCount_iff c n hn hc _ _ _).1 hm', ?_⟩
        have := hp.filterMap id
        simpa [List.filterMap_map] using this
      · rintro ⟨us, us', h1, h2, hp⟩
        rw [(allCount_iff c n hn hc _ _ _).2 h1] at hm; cases hm
        rw [(allCount_iff c n hn hc _ _ _).2 h2] at hm'; cases hm'
        exact hp.map some

theorem apart_texts (c : Cfg) (n : Nat) (hn : n > 0) (hc : c.chunks = readChunks n) (fs fs' : FS) (is is' : List Item) (d d' : Bytes)
    (h : c.hashItems fs is = some d) (h' : c.hashItems fs' is' = some d') (ha : Apart c fs is fs' is') :
    NoCollision c.H (c.texts fs is ++ c.texts fs' is') := by
  unfold Cfg.hashItems at h h'
  cases hm : is.mapM (c.fed fs) with
  | none => rw [hm] at h; cases h
  | some ts =>
    cases hm' : is'.mapM (c.fed fs') with
    | none => rw [hm'] at h'; cases h'
    | some ts' =>
      have := ha ts ts' (sortBytes (ts.map c.H)) (sortBytes (ts'.map c.H)) ((allCount_iff c n hn hc _ _ _).1 hm)
        ((allCount_iff c n hn hc _ _ _).1 hm') (sortBytes_perm _) (sortBytes_perm _)
      unfold Cfg.texts
      rw [filterMap_of_mapM c fs is ts hm, filterMap_of_mapM c fs' is' ts' hm']
      exact this

/-- C21. Two lists of inputs get one digest exactly if they have the same contents, as long as the hash function does not collide
on them. -/
theorem C21_different (c : Cfg) (n : Nat) (hn : n > 0) (hc : c.chunks = readChunks n) (fs fs' : FS) (is is' : List Item) (d d' : Bytes)
    (h : c.hashItems fs is = some d) (h' : c.hashItems fs' is' = some d') (ha : Apart c fs is fs' is') :
    d = d' ↔ SameContents c fs is fs' is' := by
  rw [different_model c fs fs' is is' d d' h h' (apart_texts c n hn hc fs fs' is is' d d' h h' ha)]
  exact sameFed_iff c n hn hc fs fs' is is' d d' h h'

/-- C20. After any history, with all files there: no build is asked for exactly if the digests of inputs and output were recorded
together, and nothing else was recorded for these inputs since. -/
theorem C20_exact (c : Cfg) (fs0 : FS) (es : List Event) (inputs : List Item) (output : Item) (i o : Bytes)
    (hm : AllThere (c.run (fs0, []) es).1 inputs output) (hi : c.hashItems (c.run (fs0, []) es).1 inputs = some i)
    (ho : c.hashItems (c.run (fs0, []) es).1 [output] = some o) :
    c.buildNeeded (c.run (fs0, []) es).1 (c.run (fs0, []) es).2 inputs output false =
        some (false, (c.run (fs0, []) es).2) ↔
      ∃ pre e post, es = pre ++ e :: post ∧ Records c (c.run (fs0, []) pre).1 e i o ∧
        ∀ pre' e' post' o', post = pre' ++ e' :: post' → ¬ Records c (c.run (fs0, []) (pre ++ e :: pre')).1 e' i o' := by
  rw [exact_model c fs0 es inputs output i o ((filesMissing_iff _ _ _).2 hm) ((calculateHash_iff _ _ _ _ _ _).2 ⟨hi, ho⟩)]
  simp only [logs_iff]

/-- C20. A recorded build is not repeated: after the record, and whatever happens to other files and whatever other
builders do, no build is needed while the contents of inputs and output are as they were. Partial: no other builder
may record the same inputs with another output. -/
theorem C20_not_repeated_partial (c : Cfg) (st : FS × Dict Bytes Bytes) (inputs inputs' : List Item) (output : Item)
    (i o : Bytes) (hperm : inputs'.Perm inputs) (hrec : Records c st.1 (.call inputs output true) i o) (es : List Event)
    (hsame : ∀ p, Item.path p ∈ output :: inputs →
      (c.run (c.step st (.call inputs output true)) es).1 p = st.1 p)
    (hothers : ∀ pre e post o', es = pre ++ e :: post →
      Records c (c.run (c.step st (.call inputs output true)) pre).1 e i o' → o' = o) :
    c.buildNeeded (c.run (c.step st (.call inputs output true)) es).1
        (c.run (c.step st (.call inputs output true)) es).2 inputs' output false =
      some (false, (c.run (c.step st (.call inputs output true)) es).2) :=
  not_repeated_model c st inputs inputs' output i o hperm ((logs_iff _ _ _ _ _).2 hrec) es hsame
    fun pre e post o' he hl => hothers pre e post o' he ((logs_iff _ _ _ _ _).1 hl)

/-- C20. A change asks for a build: if after any history no build is asked for, then all files are there,
and a build was recorded that had inputs and an output with the present contents. -/
theorem C20_change (c : Cfg) (n : Nat) (hn : n > 0) (hc : c.chunks = readChunks n) (fs0 : FS) (es : List Event) (inputs : List Item)
    (output : Item)
    (h : (c.buildNeeded (c.run (fs0, []) es).1 (c.run (fs0, []) es).2 inputs output false).map Prod.fst = some false)
    (hcol : ∀ pre inputs' output' post, es = pre ++ .call inputs' output' true :: post →
      Apart c (c.run (fs0, []) es).1 inputs (c.run (fs0, []) pre).1 inputs' ∧
      Apart c (c.run (fs0, []) es).1 [output] (c.run (fs0, []) pre).1 [output']) :
    AllThere (c.run (fs0, []) es).1 inputs output ∧
    ∃ pre inputs' output' post, es = pre ++ .call inputs' output' true :: post ∧
      SameContents c (c.run (fs0, []) es).1 inputs (c.run (fs0, []) pre).1 inputs' ∧
      SameContents c (c.run (fs0, []) es).1 [output] (c.run (fs0, []) pre).1 [output'] := by
  cases hm : filesMissing (c.run (fs0, []) es).1 inputs output with
  | none => simp [Cfg.buildNeeded, hm] at h
  | some b =>
    cases b with
    | true => simp [Cfg.buildNeeded, hm] at h
    | false =>
      refine ⟨(filesMissing_iff _ _ _).1 hm, ?_⟩
      obtain ⟨i, o, hd⟩ := digests_exist c _ inputs output hm
      have hget : (c.run (fs0, []) es).2.get? i = some o := by
        simpa [Cfg.buildNeeded, hm, hd] using h
      obtain ⟨hi, ho⟩ := (calculateHash_iff _ _ _ _ _ _).1 hd
      rcases (run_db c (fs0, []) es i o).1 hget with ⟨pre, e, post, he, hr, _⟩ | ⟨h0, _⟩
      · rw [logs_iff] at hr
        cases hr with
        | call inputs' output' _ _ ht hi' ho' =>
          obtain ⟨hc1, hc2⟩ := hcol pre inputs' output' post he
          exact ⟨pre, inputs', output', post, he, (C21_different c n hn hc _ _ _ _ _ _ hi hi' hc1).1 rfl,
            (C21_different c n hn hc _ _ _ _ _ _ ho ho' hc2).1 rfl⟩
      · simp at h0

/-- Finding: two builders with the same inputs and different outputs keep invalidating each other: once both are
recorded, the first needs a build again although nothing changed. -/
theorem C20_shared_inputs (c : Cfg) (fs : FS) (db : Dict Bytes Bytes) (inputs : List Item) (out1 out2 : Item)
    (i o1 o2 : Bytes) (h1 : Records c fs (.call inputs out1 true) i o1)
    (h2 : Records c fs (.call inputs out2 true) i o2) (hne : o1 ≠ o2) :
    (c.buildNeeded fs (c.run (fs, db) [.call inputs out1 true, .call inputs out2 true]).2 inputs out1 false).map
      Prod.fst = some true :=
  shared_inputs_model c fs db inputs out1 out2 i o1 o2 ((logs_iff _ _ _ _ _).2 h1) ((logs_iff _ _ _ _ _).2 h2) hne

/-- The hypotheses are met: the toy hash does not collide on these inputs, whose contents count as they are. -/
example : Apart toy toyFS [.path "a".toList] toyFS [.path "b".toList] := by
  intro ts ts' ds ds' h1 h2 h3 h4
  have e1 := (allCount_iff toy 2 (by decide) rfl _ _ _).2 h1
  have e2 := (allCount_iff toy 2 (by decide) rfl _ _ _).2 h2
  have k1 : [Item.path "a".toList].mapM (toy.fed toyFS) = some [[1, 2]] := by decide
  have k2 : [Item.path "b".toList].mapM (toy.fed toyFS) = some [[3]] := by decide
  rw [k1] at e1; rw [k2] at e2
  cases e1; cases e2
  have f3 := List.perm_singleton.1 h3
  have f4 := List.perm_singleton.1 h4
  subst f3; subst f4
  exact ⟨by decide, 4, by decide, fun x _ => rfl⟩

example : Records toy toyFS (.call [.path "a".toList, .other [5]] (.path "o".toList) true)
    ((toy.hashItems toyFS [.path "a".toList, .other [5]]).getD []) ((toy.hashItems toyFS [.path "o".toList]).getD []) :=
  .call _ _ _ _ ((filesMissing_iff _ _ _).1 (by decide)) (by decide) (by decide)

end Verif.Decider
