import Verif.Spec.CopyFile
import Verif.Lemmas.Lists
import Verif.Props.Decider

/-! # Lemmas for copied and saved files -/

namespace Verif.CopyFile

open Verif Verif.Decider

variable {c : Cfg} {enc : Str → Bytes}

/-! ### The decider -/

theorem needed_cases (fs : FS) (db : Dict Bytes Bytes) (is : List Item) (o : Item) (h0 : is ≠ []) :
    (¬ AllThere fs is o ∧ ∀ r, c.buildNeeded fs db is o r = some (true, db)) ∨
    (AllThere fs is o ∧ ∃ i d, c.hashItems fs is = some i ∧ c.hashItems fs [o] = some d ∧
      c.buildNeeded fs db is o true = some (false, db.set i d) ∧
      c.buildNeeded fs db is o false = some (decide (db.get? i ≠ some d), db)) := by
  cases hm : filesMissing fs is o with
  | none =>
    unfold filesMissing at hm
    rw [if_neg h0] at hm
    split at hm <;> try cases hm
    split at hm <;> cases hm
  | some b =>
    cases b with
    | true =>
      left
      refine ⟨fun h => ?_, fun r => by simp [Cfg.buildNeeded, hm]⟩
      rw [(filesMissing_iff _ _ _).2 h] at hm
      cases hm
    | false =>
      right
      refine ⟨(filesMissing_iff _ _ _).1 hm, ?_⟩
      obtain ⟨i, d, hd⟩ := digests_exist c fs is o hm
      obtain ⟨h1, h2⟩ := (calculateHash_iff _ _ _ _ _ _).1 hd
      exact ⟨i, d, h1, h2, by simp [Cfg.buildNeeded, hm, hd], by simp [Cfg.buildNeeded, hm, hd]⟩

theorem inputs_ne (action : Str) (ps : List Param) : inputs enc action ps ≠ [] := by simp [inputs]

/-- Whether the build is needed. -/
def needed (c : Cfg) (enc : Str → Bytes) (action : Str) (w : World) (ps : List Param) (out : Str) : Prop :=
  ¬ (AllThere w.fs (inputs enc action ps) (.path out) ∧ ∃ i d, c.hashItems w.fs (inputs enc action ps) = some i ∧
    c.hashItems w.fs [.path out] = some d ∧ w.db.get? i = some d)

theorem needed_eq (action : Str) (w : World) (ps : List Param) (out : Str) :
    ∃ b, c.buildNeeded w.fs w.db (inputs enc action ps) (.path out) false = some (b, w.db) ∧
      (b = true ↔ needed c enc action w ps out) := by
  rcases needed_cases (c := c) w.fs w.db (inputs enc action ps) (.path out) (inputs_ne _ _) with ⟨h1, h2⟩ | ⟨h1, i, d, h2, h3, _, h5⟩
  · exact ⟨true, h2 false, ⟨fun _ h => h1 h.1, fun _ => rfl⟩⟩
  · refine ⟨_, h5, ?_⟩
    rw [decide_eq_true_eq]
    constructor
    · rintro h ⟨_, i', d', k1, k2, k3⟩
      rw [h2] at k1; cases k1
      rw [h3] at k2; cases k2
      exact h k3
    · exact fun h h' => h ⟨h1, i, d, h2, h3, h'⟩

/-- `record` leaves the files, and records if all files are there. -/
theorem record_eq (action : Str) (w : World) (ps : List Param) (out : Str) :
    (record c enc action w ps out).fs = w.fs ∧
    ((¬ AllThere w.fs (inputs enc action ps) (.path out) ∧ record c enc action w ps out = w) ∨
     (AllThere w.fs (inputs enc action ps) (.path out) ∧ ∃ i d, c.hashItems w.fs (inputs enc action ps) = some i ∧
        c.hashItems w.fs [.path out] = some d ∧ (record c enc action w ps out).db = w.db.set i d ∧
        ¬ needed c enc action (record c enc action w ps out) ps out)) := by
  unfold record
  rcases needed_cases (c := c) w.fs w.db (inputs enc action ps) (.path out) (inputs_ne _ _) with ⟨h1, h2⟩ | ⟨h1, i, d, h2, h3, h4, _⟩
  · rw [h2]
    exact ⟨rfl, .inl ⟨h1, rfl⟩⟩
  · rw [h4]
    refine ⟨rfl, .inr ⟨h1, i, d, h2, h3, rfl, ?_⟩⟩
    unfold needed
    refine Classical.not_not.2 ⟨h1, i, d, h2, h3, ?_⟩
    simp only
    rw [Dict.get?_set, if_pos rfl]

/-! ### The status of a copy -/

theorem status_eq (w : World) (ps : List Param) (out : Str) :
    ((¬ needed c enc copyAction w (copyParameters ps) out ∨ (infilepaths (copyParameters ps)).head? = some out) ∧
      copyStatus c enc w ps out = .ok .done) ∨
    (needed c enc copyAction w (copyParameters ps) out ∧ (infilepaths (copyParameters ps)).head? ≠ some out ∧
      (∃ p ∈ infilepaths (copyParameters ps), w.fs p = none) ∧ copyStatus c enc w ps out = .ok .missingParameters) ∨
    (needed c enc copyAction w (copyParameters ps) out ∧ (infilepaths (copyParameters ps)).head? ≠ some out ∧
      (∀ p ∈ infilepaths (copyParameters ps), w.fs p ≠ none) ∧ copyStatus c enc w ps out = .ok .ready) := by
  obtain ⟨b, h1, h2⟩ := needed_eq (c := c) (enc := enc) copyAction w (copyParameters ps) out
  unfold copyStatus
  rw [h1]
  simp only
  by_cases hb : b = true
  · by_cases hh : (infilepaths (copyParameters ps)).head? = some out
    · left; exact ⟨.inr hh, by simp [hh]⟩
    · right
      have hc : (!b || decide ((infilepaths (copyParameters ps)).head? = some out)) = false := by simp [hb, hh]
      rw [hc]
      simp only [Bool.false_eq_true, if_false]
      by_cases ha : ((infilepaths (copyParameters ps)).all fun p => (w.fs p).isSome) = true
      · right
        rw [ha]
        refine ⟨h2.1 hb, hh, fun p hp h => ?_, by simp⟩
        have := List.all_eq_true.1 ha p hp
        rw [h] at this; cases this
      · left
        have ha' := eq_false_of_ne_true ha
        rw [ha']
        refine ⟨h2.1 hb, hh, ?_, by simp⟩
        rw [List.all_eq_false] at ha'
        obtain ⟨p, hp, hn⟩ := ha'
        refine ⟨p, hp, ?_⟩
        cases hf : w.fs p with
        | none => rfl
        | some x => rw [hf] at hn; exact absurd rfl hn
  · left
    have : b = false := eq_false_of_ne_true hb
    exact ⟨.inl fun h => hb (h2.2 h), by simp [this]⟩

theorem mem_infilepaths (ps : List Param) (p : Str) : p ∈ infilepaths ps ↔ Param.path p ∈ ps := by
  unfold infilepaths
  rw [List.mem_filterMap]
  constructor
  · rintro ⟨x, hx, h⟩
    cases x <;> simp at h
    rw [← h]; exact hx
  · exact fun h => ⟨_, h, rfl⟩

theorem asPath_item (x : Param) : (Param.asPath x).item enc = copyInput x := by cases x <;> rfl

theorem copyInput_asPath (x : Param) : copyInput (Param.asPath x) = copyInput x := by cases x <;> rfl

theorem mem_copyParameters (ps : List Param) (x : Param) : x ∈ copyParameters ps ↔ ∃ y ∈ ps, y.asPath = x := by
  unfold copyParameters
  rw [Lists.mem_uniq, List.mem_map]

theorem no_text (ps : List Param) (s : Str) : Param.text s ∉ copyParameters ps := by
  rw [mem_copyParameters]
  rintro ⟨y, _, h⟩
  cases y <;> cases h

theorem item_copyParameters (ps : List Param) : (copyParameters ps).map (Param.item enc) = (copyParameters ps).map copyInput := by
  apply List.map_congr_left
  intro x hx
  cases x with
  | path p => rfl
  | other b => rfl
  | text s => exact absurd hx (no_text ps s)

theorem copyParameters_single (p : Str) : copyParameters [.path p] = [.path p] := rfl

theorem decides_copy (ps : List Param) (out : Str) :
    Decides enc (.copy ps out) (inputs enc copyAction (copyParameters ps)) (.path out) := by
  unfold inputs
  rw [item_copyParameters]
  refine .copy ps _ out ?_ fun x => ?_
  · unfold List.Nodup
    rw [List.pairwise_map]
    refine List.Pairwise.imp_of_mem ?_ (Lists.uniq_nodup (ps.map Param.asPath))
    intro a b ha hb hab h
    apply hab
    cases a with
    | text s => exact absurd ha (no_text ps s)
    | path p =>
      cases b with
      | text s => exact absurd hb (no_text ps s)
      | path q => cases h; rfl
      | other q => cases h
    | other p =>
      cases b with
      | text s => exact absurd hb (no_text ps s)
      | path q => cases h
      | other q => cases h; rfl
  rw [List.mem_map, List.mem_map]
  constructor
  · rintro ⟨y, hy, rfl⟩
    obtain ⟨z, hz, rfl⟩ := (mem_copyParameters ps y).1 hy
    exact ⟨z, hz, (copyInput_asPath z).symm⟩
  · rintro ⟨z, hz, rfl⟩
    exact ⟨_, (mem_copyParameters ps _).2 ⟨z, hz, rfl⟩, copyInput_asPath z⟩

theorem decides_save (ps : List Param) (out : Str) :
    Decides enc (.save ps out) (inputs enc saveAction (saveParameters ps)) (.path out) := by
  have h : (saveParameters ps).map (Param.item enc) = (saveParameters ps).map (saveInput enc) := by
    apply List.map_congr_left
    intro x _
    cases x <;> rfl
  unfold inputs
  rw [h]
  exact .save ps _ out (Lists.uniq_nodup _) fun x => Lists.mem_uniq _ _

/-! ### What a copy does -/

theorem build_cases (w : World) (ps : List Param) (out : Str) :
    (copyStatus c enc w ps out ≠ .ok .ready ∧ copyBuild c enc w ps out = (copyStatus c enc w ps out, w)) ∨
    (copyStatus c enc w ps out = .ok .ready ∧ copyBuild c enc w ps out = (.error .indexError, w) ∧ copyParameters ps = []) ∨
    (copyStatus c enc w ps out = .ok .ready ∧ copyBuild c enc w ps out = (.error .typeError, w) ∧
      ∃ x rest, copyParameters ps = x :: rest ∧ ∀ p, x ≠ .path p) ∨
    (copyStatus c enc w ps out = .ok .ready ∧ ∃ p rest b w', copyParameters ps = .path p :: rest ∧ w.fs p = some b ∧ p ≠ out ∧
      w' = record c enc copyAction ⟨write w.fs out b, w.db⟩ (copyParameters ps) out ∧
      copyBuild c enc w ps out = (copyStatus c enc w' ps out, w')) := by
  by_cases hr : copyStatus c enc w ps out = .ok .ready
  · right
    rcases status_eq (c := c) (enc := enc) w ps out with ⟨_, h⟩ | ⟨_, _, _, h⟩ | ⟨_, hh, hall, _⟩
    · rw [hr] at h; cases h
    · rw [hr] at h; cases h
    · unfold copyBuild
      rw [hr]
      simp only
      cases hps : copyParameters ps with
      | nil => left; exact ⟨trivial, rfl, rfl⟩
      | cons x rest =>
        right
        cases x with
        | path p =>
          right
          have hp : p ∈ infilepaths (copyParameters ps) := (mem_infilepaths _ _).2 (by rw [hps]; exact List.mem_cons_self)
          have hne : p ≠ out := by
            rintro rfl
            apply hh
            rw [hps]; rfl
          cases hb : w.fs p with
          | none => exact absurd hb (hall p hp)
          | some b =>
            refine ⟨trivial, p, rest, b, _, rfl, hb, hne, rfl, ?_⟩
            simp only [hb, if_neg hne]
        | text s => left; exact ⟨trivial, rfl, _, _, rfl, fun _ h => by cases h⟩
        | other s => left; exact ⟨trivial, rfl, _, _, rfl, fun _ h => by cases h⟩
  · left
    refine ⟨hr, ?_⟩
    unfold copyBuild
    cases h : copyStatus c enc w ps out with
    | error e => rfl
    | ok st =>
      cases st <;> first | rfl | exact absurd h hr

/-- After a write, what is copied is there. -/
theorem allThere_write (w : World) (ps : List Param) (out : Str) (b : Bytes) (action : Str)
    (h : ∀ p, Param.path p ∈ ps → w.fs p ≠ none) :
    AllThere (write w.fs out b) (inputs enc action ps) (.path out) := by
  refine ⟨inputs_ne _ _, fun p hp => ?_⟩
  unfold write
  by_cases hq : p = out
  · rw [if_pos hq]; simp
  · rw [if_neg hq]
    rcases List.mem_cons.1 hp with h' | h'
    · cases h'; exact absurd rfl hq
    · unfold inputs at h'
      rcases List.mem_append.1 h' with h' | h'
      · obtain ⟨x, hx, he⟩ := List.mem_map.1 h'
        cases x with
        | path q => cases he; exact h p hx
        | text s => cases he
        | other s => cases he
      · cases List.mem_singleton.1 h'

/-- A copy that is made is recorded. -/
theorem build_ready (w : World) (ps : List Param) (out : Str) (p : Str) (rest : List Param) (b : Bytes)
    (hps : copyParameters ps = .path p :: rest) (hr : copyStatus c enc w ps out = .ok .ready) (hb : w.fs p = some b) :
    p ≠ out ∧ ∃ i d, (copyBuild c enc w ps out).1 = .ok .done ∧ (copyBuild c enc w ps out).2.fs = write w.fs out b ∧
      c.hashItems (write w.fs out b) (inputs enc copyAction (copyParameters ps)) = some i ∧
      c.hashItems (write w.fs out b) [.path out] = some d ∧ (copyBuild c enc w ps out).2.db = w.db.set i d ∧
      AllThere (write w.fs out b) (inputs enc copyAction (copyParameters ps)) (.path out) := by
  rcases build_cases (c := c) (enc := enc) w ps out with ⟨h, _⟩ | ⟨_, _, h⟩ | ⟨_, _, x, r, h, hx⟩ | ⟨_, q, r, b', w', h, hb', hne, hw, he⟩
  · exact absurd hr h
  · rw [hps] at h; cases h
  · rw [hps] at h; cases h; exact absurd rfl (hx p)
  · rw [hps] at h; cases h
    rw [hb] at hb'; cases hb'
    refine ⟨hne, ?_⟩
    have hall : ∀ q, Param.path q ∈ copyParameters ps → w.fs q ≠ none := by
      rcases status_eq (c := c) (enc := enc) w ps out with ⟨_, h⟩ | ⟨_, _, _, h⟩ | ⟨_, _, hall, _⟩
      · rw [hr] at h; cases h
      · rw [hr] at h; cases h
      · exact fun q hq => hall q ((mem_infilepaths _ _).2 hq)
    have ht := allThere_write (enc := enc) w (copyParameters ps) out b copyAction hall
    obtain ⟨h1, h2⟩ := record_eq (c := c) (enc := enc) copyAction ⟨write w.fs out b, w.db⟩ (copyParameters ps) out
    rcases h2 with ⟨h2, _⟩ | ⟨_, i, d, k1, k2, k3, k4⟩
    · exact absurd ht h2
    · rw [← hw] at h1 k3 k4
      refine ⟨i, d, ?_, ?_, k1, k2, ?_, ht⟩
      · rw [he]
        rcases status_eq (c := c) (enc := enc) w' ps out with ⟨_, h⟩ | ⟨h, _⟩ | ⟨h, _⟩
        · exact h
        · exact absurd h k4
        · exact absurd h k4
      · rw [he]; exact h1
      · rw [he]; exact k3

/-! ### Histories -/

/-- One step that records. -/
inductive Rec (c : Cfg) (enc : Str → Bytes) (w : World) : Op → List Item → Item → Prop
  | copy (ps : List Param) (out p : Str) (rest : List Param) (b : Bytes) : copyParameters ps = .path p :: rest → w.fs p = some b →
      p ≠ out → (step c enc w (.copy ps out)).fs = write w.fs out b →
      Rec c enc w (.copy ps out) (inputs enc copyAction (copyParameters ps)) (.path out)
  | save (ps : List Param) (out s : Str) : s ∈ strings (saveParameters ps) →
      Rec c enc w (.save ps out) (inputs enc saveAction (saveParameters ps)) (.path out)
  | other (is : List Item) (o : Item) : Rec c enc w (.other is o true) is o

theorem Rec.decides (h : Rec c enc w op is o) : Decides enc op is o := by
  cases h with
  | copy => exact decides_copy _ _
  | save => exact decides_save _ _
  | other => exact .other _ _

theorem save_eq (w : World) (ps : List Param) (out : Str) :
    (strings (saveParameters ps) = [] ∧ saveBuild c enc w ps out = (.error .buildError, w)) ∨
    ∃ s rest, strings (saveParameters ps) = s :: rest ∧
      (saveBuild c enc w ps out).2 = record c enc saveAction ⟨write w.fs out (enc s), w.db⟩ (saveParameters ps) out := by
  unfold saveBuild
  cases hs : strings (saveParameters ps) with
  | nil => exact .inl ⟨rfl, rfl⟩
  | cons s rest =>
    refine .inr ⟨s, rest, rfl, ?_⟩
    simp only
    split <;> rfl

theorem step_rec (w : World) (op : Op) (i d : Bytes) (h : (step c enc w op).db.get? i = some d) :
    w.db.get? i = some d ∨ ∃ is o, Rec c enc w op is o ∧ c.hashItems (step c enc w op).fs is = some i ∧
      c.hashItems (step c enc w op).fs [o] = some d := by
  cases op with
  | files fs => exact .inl h
  | copy ps out =>
    rcases build_cases (c := c) (enc := enc) w ps out with ⟨_, h1⟩ | ⟨_, h1, _⟩ | ⟨_, h1, _⟩ | ⟨hr, q, r, b', w', hps, hb', hne, hw, he⟩
    · left; simp only [step, h1] at h; exact h
    · left; simp only [step, h1] at h; exact h
    · left; simp only [step, h1] at h; exact h
    · obtain ⟨_, i', d', _, k2, k3, k4, k5, _⟩ := build_ready (c := c) (enc := enc) w ps out q r b' hps hr hb'
      simp only [step] at h
      rw [k5, Dict.get?_set] at h
      by_cases hi : i' = i
      · rw [if_pos hi] at h
        right
        cases h
        subst hi
        have e : (step c enc w (.copy ps out)).fs = write w.fs out b' := k2
        exact ⟨_, _, .copy ps out q r b' hps hb' hne e, by rw [e]; exact k3, by rw [e]; exact k4⟩
      · rw [if_neg hi] at h; exact .inl h
  | save ps out =>
    rcases save_eq (c := c) (enc := enc) w ps out with ⟨_, h1⟩ | ⟨s, rest, hs, h1⟩
    · left; simp only [step, h1] at h; exact h
    · have e : step c enc w (.save ps out) = record c enc saveAction ⟨write w.fs out (enc s), w.db⟩ (saveParameters ps) out := h1
      rw [e] at h ⊢
      obtain ⟨r1, r2⟩ := record_eq (c := c) (enc := enc) saveAction ⟨write w.fs out (enc s), w.db⟩ (saveParameters ps) out
      rcases r2 with ⟨_, r2⟩ | ⟨_, i', d', k1, k2, k3, _⟩
      · rw [r2] at h; exact .inl h
      · rw [k3, Dict.get?_set] at h
        by_cases hi : i' = i
        · rw [if_pos hi] at h
          right
          cases h
          subst hi
          refine ⟨_, _, .save ps out s (by rw [hs]; exact List.mem_cons_self), ?_, ?_⟩
          · rw [r1]; exact k1
          · rw [r1]; exact k2
        · rw [if_neg hi] at h; exact .inl h
  | other is o reset =>
    simp only [step] at h ⊢
    by_cases h0 : is = []
    · left
      have : c.buildNeeded w.fs w.db is o reset = none := by simp [Cfg.buildNeeded, filesMissing, h0]
      rw [this] at h; exact h
    · rcases needed_cases (c := c) w.fs w.db is o h0 with ⟨_, h2⟩ | ⟨_, i', d', k1, k2, k3, k4⟩
      · rw [h2] at h; exact .inl h
      · cases reset with
        | false => rw [k4] at h; exact .inl h
        | true =>
          rw [k3] at h
          simp only [Option.map_some, Option.getD_some] at h
          rw [Dict.get?_set] at h
          by_cases hi : i' = i
          · rw [if_pos hi] at h
            right
            cases h
            subst hi
            exact ⟨_, _, .other is o, k1, k2⟩
          · rw [if_neg hi] at h; exact .inl h

theorem run_snoc (w : World) (ops : List Op) (op : Op) : run c enc w (ops ++ [op]) = step c enc (run c enc w ops) op := by
  simp [run]

theorem run_rec (fs0 : FS) (ops : List Op) (i d : Bytes) (h : (run c enc ⟨fs0, []⟩ ops).db.get? i = some d) :
    ∃ pre op post is o, ops = pre ++ op :: post ∧ Rec c enc (run c enc ⟨fs0, []⟩ pre) op is o ∧
      c.hashItems (run c enc ⟨fs0, []⟩ (pre ++ [op])).fs is = some i ∧
      c.hashItems (run c enc ⟨fs0, []⟩ (pre ++ [op])).fs [o] = some d := by
  generalize hn : ops.length = n
  induction n generalizing ops with
  | zero =>
    rw [List.length_eq_zero_iff.1 hn] at h
    cases h
  | succ n ih =>
    have h0 : ops ≠ [] := by rintro rfl; cases hn
    obtain ⟨op, hop⟩ : ∃ op, ops = ops.dropLast ++ [op] := ⟨_, (List.dropLast_concat_getLast h0).symm⟩
    rw [hop, run_snoc] at h
    rcases step_rec _ _ _ _ h with h | ⟨is, o, h1, h2, h3⟩
    · obtain ⟨pre, e, post, is, o, k1, k⟩ := ih ops.dropLast h (by rw [List.length_dropLast, hn]; rfl)
      refine ⟨pre, e, post ++ [op], is, o, ?_, k⟩
      rw [hop, k1]; simp
    · exact ⟨ops.dropLast, op, [], is, o, hop, h1, by rw [run_snoc]; exact h2, by rw [run_snoc]; exact h3⟩

end Verif.CopyFile
