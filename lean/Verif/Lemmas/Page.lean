import Verif.Lemmas.PagePara

/-!
# Lemmas: the tree that is made of the text of a document
-/

namespace Verif.Page

open Verif Verif.Typography Verif.Parser Verif.Parser.Spec Verif.Page.Spec

variable {ch : Chars} {Q : Str → Str → Prop}

/-! ### Names -/

/-- The names of verbatim tags. -/
theorem verbatim_iff (lower : Str → Str) (n : Str) :
    verbatim lower n = true ↔ lower n ∈ ["verb".toList, "v".toList, "pre".toList, "verbatim".toList] := by
  unfold verbatim verbatims
  generalize lower n = x
  rw [List.any_eq_true]
  constructor
  · rintro ⟨s, hs, he⟩
    rw [decide_eq_true_eq] at he
    subst he
    have : ∀ s ∈ ["verb", "v", "pre", "verbatim"], s.toList ∈ ["verb".toList, "v".toList, "pre".toList, "verbatim".toList] := by
      decide
    exact this s hs
  · intro h
    have : ∀ x ∈ ["verb".toList, "v".toList, "pre".toList, "verbatim".toList],
        (["verb", "v", "pre", "verbatim"].any fun s => decide (s.toList = x)) = true := by decide
    exact List.any_eq_true.1 (this x h)

theorem get?_mem {κ α : Type} [DecidableEq κ] (d : Dict κ α) (k : κ) (v : α) (h : d.get? k = some v) : (k, v) ∈ d := by
  induction d with
  | nil => simp [Dict.get?] at h
  | cons e d ih =>
    obtain ⟨a, b⟩ := e
    rw [Dict.get?] at h
    by_cases hk : a = k
    · rw [if_pos hk] at h; cases h; subst hk; simp
    · rw [if_neg hk] at h; exact List.mem_cons_of_mem _ (ih h)

theorem raw_iff (lower : Str → Str) (n : Str) : raw lower n = verbatim lower n := by
  have h1 : ∀ e ∈ kinds, e.2 = .verb → e.1 ∈ ["verb".toList, "v".toList, "pre".toList, "verbatim".toList] := by decide
  have h2 : ∀ x ∈ ["verb".toList, "v".toList, "pre".toList, "verbatim".toList], kinds.get? x = some .verb := by decide
  have hv := verbatim_iff lower n
  have hr : raw lower n = true ↔ lower n ∈ ["verb".toList, "v".toList, "pre".toList, "verbatim".toList] := by
    unfold raw kindOf
    cases hk : kinds.get? (lower n) with
    | none =>
      constructor
      · intro h; simp only [decide_eq_true_eq] at h; split at h <;> cases h
      · intro h; rw [h2 _ h] at hk; cases hk
    | some k =>
      simp only [decide_eq_true_eq, Option.some.injEq]
      constructor
      · intro h; exact h1 _ (get?_mem _ _ _ hk) h
      · intro h; rw [h2 _ h] at hk; cases hk; rfl
  rw [Bool.eq_iff_iff, hv, hr]

theorem paragraphed_iff (lower : Str → Str) (n : Str) : paragraphed lower n = true ↔ Boxed lower n := by
  have h1 : ∀ e ∈ kinds, e.2 = .featurebox ∨ e.2 = .examplebox ∨ e.2 = .problembox →
    e.1 ∈ ["featurebox".toList, "examplebox".toList, "problembox".toList] := by decide
  have h2 : ∀ x ∈ ["featurebox".toList, "examplebox".toList, "problembox".toList],
    kinds.get? x = some .featurebox ∨ kinds.get? x = some .examplebox ∨ kinds.get? x = some .problembox := by decide
  unfold paragraphed Boxed
  rw [Bool.or_eq_true, decide_eq_true_eq]
  apply or_congr Iff.rfl
  unfold kindOf
  cases hk : kinds.get? (lower n) with
  | none =>
    constructor
    · intro h
      simp only at h
      by_cases hs : special.contains (lower n) = true
      · rw [if_pos hs] at h; simp at h
      · rw [if_neg hs] at h; simp at h
    · intro h; have := h2 _ h; rw [hk] at this; simp at this
  | some k =>
    constructor
    · intro h
      refine h1 _ (get?_mem _ _ _ hk) ?_
      simpa using h
    · intro h; have := h2 _ h; rw [hk] at this; simpa using this

theorem symbol_kind (lower : Str → Str) (n : Str) (h : kindOf lower n = some .symbol) : Symbol lower n := by
  have h1 : ∀ e ∈ kinds, e.2 = .symbol → e.1 ∈ ["symbol".toList, "smb".toList] := by decide
  unfold kindOf at h
  cases hk : kinds.get? (lower n) with
  | none =>
    rw [hk] at h
    simp only at h
    split at h <;> cases h
  | some k =>
    rw [hk] at h
    cases h
    exact h1 _ (get?_mem _ _ _ hk) rfl

theorem kind_ok (lower : Str → Str) (n : Str) (h : lower n ∉ special) : kindOf lower n ≠ none := by
  unfold kindOf
  cases kinds.get? (lower n) with
  | some k => simp
  | none => simp [h]

theorem raw_not_boxed (hb : ch.lower "body".toList = "body".toList) (n : Str) (h : raw ch.lower n = true) :
    paragraphed ch.lower n = false := by
  cases hp : paragraphed ch.lower n with
  | false => rfl
  | true =>
    rw [raw_iff] at h
    have hv := (verbatim_iff _ _).1 h
    rcases (paragraphed_iff _ _).1 hp with rfl | hx
    · rw [hb] at hv; exact absurd hv (by decide)
    · have : ∀ x ∈ ["verb".toList, "v".toList, "pre".toList, "verbatim".toList],
        x ∉ ["featurebox".toList, "examplebox".toList, "problembox".toList] := by decide
      exact absurd hx (this _ hv)

/-! ### Braces -/

/-- Beginning with `k` open braces there are never less than none and never more than `d`. -/
def Depth (k d : Nat) (s : Str) : Prop :=
  ∀ p, p <+: s → p.count '}' ≤ k + p.count '{' ∧ k + p.count '{' ≤ p.count '}' + d

theorem depth_body {k d : Nat} (x body rest : Str) (h : Depth k d (x ++ '{' :: (body ++ '}' :: rest))) (hb : Balanced body) :
    1 ≤ d ∧ Depth 0 (d - 1) body := by
  have h0 := (h x (List.prefix_append _ _)).1
  have h1 : ∀ p, p <+: body → k + x.count '{' + 1 + p.count '{' ≤ x.count '}' + p.count '}' + d := by
    intro p hp
    obtain ⟨t, rfl⟩ := hp
    have := (h (x ++ '{' :: p) ⟨t ++ '}' :: rest, by simp⟩).2
    have hne : ('{' == '}') = false := by decide
    simp only [List.count_append, List.count_cons, hne, BEq.rfl, if_true, Bool.false_eq_true, if_false] at this
    omega
  have hd := h1 [] List.nil_prefix
  simp only [List.count_nil] at hd
  refine ⟨by omega, ?_⟩
  intro p hp
  have := hb.2 p hp
  have := h1 p hp
  omega

theorem depth_rest {k d : Nat} (x rest : Str) (h : Depth k d (x ++ rest)) : ∃ k', Depth k' d rest := by
  refine ⟨k + x.count '{' - x.count '}', ?_⟩
  have h0 := (h x (List.prefix_append _ _)).1
  intro p hp
  obtain ⟨t, rfl⟩ := hp
  have := h (x ++ p) ⟨t, by simp⟩
  simp only [List.count_append] at this
  omega

theorem depth_closes {after body rest : Str} (h : Closes after body rest) : Depth 0 8 body := by
  intro p hp
  have h1 := h.2.1.2 p hp
  have h2 := h.2.2 p hp
  omega

/-! ### One step -/

theorem make_noTag (fuel : Nat) (s : Str) (h : NoTag s) :
    makeItems ch (fuel + 1) s = .ok (if s = [] then [] else [.str s]) := by
  rw [makeItems, (searchOpen_none ch.word s).2 h]

theorem mk_noTag (fuel : Nat) (s : Str) (h : NoTag s) : (makeItems ch (fuel + 1) s).map finish = .ok (.str s) := by
  rw [make_noTag fuel s h]
  by_cases hs : s = []
  · subst hs; rfl
  · rw [if_neg hs]
    show Except.ok (finish [.str s]) = _
    have : finish [.str s] = .str s := by
      cases s with
      | nil => exact absurd rfl hs
      | cons c s => rfl
    rw [this]

theorem make_tag (fuel : Nat) (pre name : Str) (attrs : Option Str) (after body rest : Str) (hp : NoTag pre)
    (hh : IsHead ch.word name attrs ('{' :: after)) (hc : Closes after body rest) (hk : kindOf ch.lower name ≠ none) :
    makeItems ch (fuel + 1) (pre ++ '@' :: name ++ attrs.getD [] ++ '{' :: after) =
      (if raw ch.lower name then .ok (.str body) else (makeItems ch fuel body).map finish).bind fun content =>
      (receive ch (fun s => (makeItems ch fuel s).map finish) name content).bind fun content =>
      (makeItems ch fuel rest).map fun more =>
        (if pre = [] then [] else [.str pre]) ++ .tag name attrs true content :: more := by
  have hs := searchOpen_of_head ch.word pre name attrs true after hp (by simpa [braceStr] using hh) (by simp)
  have hs' := hs
  simp only [braceStr, if_true, List.cons_append, List.nil_append] at hs'
  have hb := braceLoop_of_closes _ _ _ hc
  rw [makeItems]
  simp only [List.append_assoc, List.cons_append] at hs' ⊢
  simp only [hs', hb, if_true]
  simp only [List.dropLast_concat]
  simp only [gt_iff_lt, Nat.lt_irrefl, if_false]
  rw [if_neg hk]

theorem make_bare (fuel : Nat) (pre name : Str) (attrs : Option Str) (rest : Str) (hp : NoTag pre)
    (hh : IsHead ch.word name attrs rest) (ho : ∀ r, rest ≠ '{' :: r) (hk : kindOf ch.lower name ≠ none) :
    makeItems ch (fuel + 2) (pre ++ '@' :: name ++ attrs.getD [] ++ rest) =
      (receive ch (fun s => (makeItems ch (fuel + 1) s).map finish) name (.str [])).bind fun content =>
      (makeItems ch (fuel + 1) rest).map fun more =>
        (if pre = [] then [] else [.str pre]) ++ .tag name attrs false content :: more := by
  have hs := searchOpen_of_head ch.word pre name attrs false rest hp (by simpa [braceStr] using hh)
    (by intro _; exact ho)
  have hs' := hs
  simp only [braceStr, Bool.false_eq_true, if_false, List.nil_append] at hs'
  rw [makeItems]
  simp only [List.append_assoc, List.cons_append] at hs' ⊢
  simp only [hs', Bool.false_eq_true, if_false, List.dropLast_nil, gt_iff_lt, Nat.lt_irrefl]
  rw [if_neg hk, mk_noTag fuel [] NoTag.nil]
  cases raw ch.lower name <;> rfl

theorem fresh_notList {l : List Val} (h : FreshAll ch Q l) : ∀ v ∈ l, isList v = false := by
  intro v hv
  have := h.2 v hv
  cases v with
  | list l => exact this.elim
  | _ => rfl

/-- Something in the items of a text is not blank. -/
def FilledL (sp : Char → Bool) (l : List Val) : Prop :=
  ∃ v ∈ l, (∃ n a b c, v = Val.tag n a b c) ∨ ∃ s, v = .str s ∧ Solid sp s

theorem filled_set (hc : Classes ch.sp ch.word) (l : List Val) (h : FilledL ch.sp l) :
    FilledVal ch.sp (simplify (setVals (set ch) (proc ch.lower) l)) := by
  have h' : FilledL ch.sp (setVals (set ch) (proc ch.lower) l) := by
    obtain ⟨v, hv, h⟩ := h
    rw [setVals_map]
    refine ⟨_, List.mem_map.2 ⟨v, hv, rfl⟩, ?_⟩
    rcases h with ⟨n, a, b, c, rfl⟩ | ⟨s, rfl, hs⟩
    · left; rw [setVal]; split
      · exact ⟨_, _, _, _, rfl⟩
      · exact ⟨_, _, _, _, rfl⟩
    · right; exact ⟨_, rfl, typo_solid hc s hs⟩
  revert h'
  generalize setVals (set ch) (proc ch.lower) l = l'
  intro h
  match l' with
  | [] => obtain ⟨v, hv, _⟩ := h; simp at hv
  | [v] =>
    obtain ⟨w, hw, h⟩ := h
    simp only [List.mem_singleton] at hw
    subst hw
    rcases h with ⟨n, a, b, c, rfl⟩ | ⟨s, rfl, hs⟩
    · trivial
    · exact hs
  | v :: w :: l => exact h

/-- The receivers on the content of a tag that is not verbatim. -/
theorem receive_fresh (hc : Classes ch.sp ch.word) (hp : ch.lower "p".toList = "p".toList) (fuel : Nat) (items : List Val)
    (hi : FreshAll ch Q items) (hh : hts items + 2 < 30) (name : Str) (hr : raw ch.lower name = false) :
    ∃ c, receive ch (fun s => (makeItems ch (fuel + 1) s).map finish) name (finish items) = .ok c ∧ Good ch Q c ∧
      ((paragraphed ch.lower name = true → FilledL ch.sp items) → c ≠ .list []) ∧ cht c ≤ hts items + 1 ∧
      ∀ (α : Type) (g : List Str → Str → List α), Additive ch.sp g → ∀ path,
        vm ch.lower g path c = vms ch.lower g path (setVals (set ch) (proc ch.lower) items) := by
  obtain ⟨k1, k2⟩ := fresh_setVals ch Q hc items hi
  have hnl : ∀ v ∈ setVals (set ch) (proc ch.lower) items, isList v = false := fun v hv => ((goodAll_iff ch Q _).1 k2 v hv).2.1
  have hg := simplify_good ch Q _ k1 k2
  have hne := simplify_ne_nil _ hnl
  have hht := cht_simplify _ hnl
  rw [hts_setVals] at hht
  rw [finish_tidy items (fresh_tidy ch Q items hi)]
  have hset : (if proc ch.lower name then setVal (set ch) (proc ch.lower) (simplify items) else simplify items) =
      simplify (setVals (set ch) (proc ch.lower) items) := by
    rw [proc_raw, hr, if_pos (by rfl), setVal_simplify _ _ typo_nil]
  unfold receive
  simp only
  rw [hset]
  cases hpar : paragraphed ch.lower name with
  | false =>
    rw [if_neg (by simp)]
    exact ⟨_, rfl, hg, fun _ => hne, by omega, fun α g hg' path => vm_simplify ch.sp ch.lower g hg' path _⟩
  | true =>
    rw [if_pos rfl]
    obtain ⟨w, h1, h2, h3, h4, h5⟩ := paragraphs_good hc hp _ (mk_noTag fuel) _ hg hne (by omega)
    refine ⟨w, h1, h2, fun hf => h4 (filled_set hc items (hf rfl)), by omega, ?_⟩
    intro α g hg' path
    rw [h5 α g hg' path, vm_simplify ch.sp ch.lower g hg' path]

theorem receive_raw (hb : ch.lower "body".toList = "body".toList) (mk) (name : Str) (v : Val) (hr : raw ch.lower name = true) :
    receive ch mk name v = .ok v := by
  unfold receive
  simp only
  rw [proc_raw, hr, raw_not_boxed hb name hr]
  rfl

/-! ### The text -/

theorem reads_noTag {word sp lower s ls} (h : Reads word sp lower s ls) (hn : NoTag s) : ls = [([], s)] := by
  cases h with
  | text _ _ => rfl
  | tag pre name attrs after body rest bs rs hp hh =>
    obtain ⟨c, w, rfl, hc, _⟩ := hh.name_ok
    have := hn pre c (w ++ attrs.getD [] ++ '{' :: after) (by simp)
    rw [hc] at this; cases this
  | bare pre name attrs rest rs hp hh =>
    obtain ⟨c, w, rfl, hc, _⟩ := hh.name_ok
    have := hn pre c (w ++ attrs.getD [] ++ rest) (by simp)
    rw [hc] at this; cases this

/-- The value of a text with the names of the tags around it. -/
def leafVal {α : Type} (ch : Chars) (g : List Str → Str → List α) (path : List Str) (l : List Str × Str) : List α :=
  g (path ++ l.1.filter fun n => ch.lower n ≠ "p".toList) (if AsIs ch.lower l.1 then l.2 else set ch l.2)

theorem leafVal_cons {α : Type} (g : List Str → Str → List α) (path : List Str) (n : Str) (l : List Str × Str)
    (h : l.1 = [] → verbatim ch.lower n = false) :
    leafVal ch g path (n :: l.1, l.2) = leafVal ch g (if ch.lower n = "p".toList then path else path ++ [n]) l := by
  unfold leafVal
  have h1 : AsIs ch.lower (n :: l.1) = AsIs ch.lower l.1 := by
    unfold AsIs
    rw [List.getLast?_cons]
    cases hl : l.1.getLast? with
    | none =>
      rw [List.getLast?_eq_none_iff] at hl
      simpa using h hl
    | some x => simp
  simp only [h1]
  congr 1
  by_cases hp : ch.lower n = "p".toList
  · rw [if_pos hp, List.filter_cons_of_neg (by simpa using hp)]
  · rw [if_neg hp, List.filter_cons_of_pos (by simpa using hp)]; simp

theorem fresh_cons {pre : Str} (hp : NoTag pre) {n a b c} {more : List Val} (hg : Good ch Q (.tag n a b c)) (hm : FreshAll ch Q more) :
    FreshAll ch Q ((if pre = [] then [] else [.str pre]) ++ .tag n a b c :: more) := by
  constructor
  · split
    · simpa [noAdj] using hm.1
    · simpa [noAdj] using hm.1
  · intro v hv
    rcases List.mem_append.1 hv with hv | hv
    · split at hv
      · simp at hv
      · rename_i hne; simp only [List.mem_singleton] at hv; subst hv; exact ⟨hp, hne⟩
    · rcases List.mem_cons.1 hv with rfl | hv
      · exact hg
      · exact hm.2 v hv

theorem hts_cons (pre : Str) (v : Val) (more : List Val) :
    hts ((if pre = [] then [] else [.str pre]) ++ v :: more) = max (ht v) (hts more) := by
  split <;> simp [hts, ht]

theorem vms_cons {α : Type} (g : List Str → Str → List α) (hg : Additive ch.sp g) (path : List Str) (pre : Str) {n a b c}
    (hv : Good ch Q (.tag n a b c)) (more : List Val) :
    vms ch.lower g path (setVals (set ch) (proc ch.lower) ((if pre = [] then [] else [.str pre]) ++ .tag n a b c :: more)) =
      g path (set ch pre) ++ (vm ch.lower g path (.tag n a b c) ++ vms ch.lower g path (setVals (set ch) (proc ch.lower) more)) := by
  by_cases h : pre = []
  · subst h
    rw [if_pos rfl, List.nil_append, setVals, vms, setVal_good ch Q _ hv]
    have : set ch [] = [] := typo_nil
    rw [this, hg.blank path [] (by simp), List.nil_append]
  · rw [if_neg h, List.cons_append, List.nil_append, setVals, setVals, vms, vms, setVal_good ch Q _ hv]
    rfl

/-- The items made of a text. -/
theorem reads_make (hc : Classes ch.sp ch.word) (hp : ch.lower "p".toList = "p".toList)
    (hb : ch.lower "body".toList = "body".toList) (hQ : ∀ n, Q n []) {s ls} (h : Reads ch.word ch.sp ch.lower s ls)
    (hq : ∀ l ∈ ls, ∀ n, l.1.getLast? = some n → verbatim ch.lower n = true → Q n l.2) (fuel : Nat) (hf : s.length + 1 ≤ fuel) :
    ∃ items, makeItems ch fuel s = .ok items ∧ FreshAll ch Q items ∧ hts items ≤ 19 ∧
      (∀ k d, Depth k d s → hts items ≤ 2 * d + 1) ∧ (Solid ch.sp s → FilledL ch.sp items) ∧
      ∀ (α : Type) (g : List Str → Str → List α), Additive ch.sp g → ∀ path,
        vms ch.lower g path (setVals (set ch) (proc ch.lower) items) = ls.flatMap (leafVal ch g path) := by
  induction h generalizing fuel with
  | text s hn =>
    obtain ⟨f, rfl⟩ : ∃ f, fuel = f + 1 := ⟨fuel - 1, by omega⟩
    refine ⟨_, make_noTag f s hn, ?_⟩
    by_cases hs : s = []
    · subst hs
      rw [if_pos rfl]
      refine ⟨⟨rfl, by simp⟩, by simp [hts], by simp [hts], ?_, ?_⟩
      · rintro ⟨c, hc, _⟩; simp at hc
      · intro α g hg path
        have : set ch [] = [] := typo_nil
        simp [setVals, vms, leafVal, AsIs, this, hg.blank path [] (by simp)]
    · rw [if_neg hs]
      refine ⟨⟨rfl, ?_⟩, by simp [hts, ht], by simp [hts, ht], ?_, ?_⟩
      · intro v hv; simp only [List.mem_singleton] at hv; subst hv; exact ⟨hn, hs⟩
      · intro h; exact ⟨_, List.mem_singleton.2 rfl, .inr ⟨s, rfl, h⟩⟩
      · intro α g hg path
        simp [setVals, setVal, vms, vm, leafVal, AsIs]
  | tag pre name attrs after body rest bs rs hpre hh hcl hsp hv hbox hbs hrs ihb ihr =>
    have hlen : after.length = body.length + rest.length + 1 := by rw [hcl.1]; simp; omega
    have hlen2 : (pre ++ '@' :: name ++ attrs.getD [] ++ '{' :: after).length ≥ after.length + 2 := by simp; omega
    obtain ⟨f, rfl⟩ : ∃ f, fuel = f + 2 := ⟨fuel - 2, by omega⟩
    have hk := kind_ok ch.lower name hsp
    obtain ⟨more, m1, m2, m3, m4, m5, m6⟩ := ihr (fun l hl => hq l (by simp [hl])) (f + 1) (by omega)
    obtain ⟨bits, b1, b2, b3, b4, b5, b6⟩ := ihb (by
      intro l hl n hn hv
      refine hq (name :: l.1, l.2) ?_ n ?_ hv
      · exact List.mem_append_left _ (List.mem_cons_of_mem _ (List.mem_map.2 ⟨l, hl, rfl⟩))
      · rw [List.getLast?_cons, hn]; rfl) (f + 1) (by omega)
    have hb8 := b4 0 8 (depth_closes hcl)
    -- the content
    obtain ⟨c, hcont, hgood, hcht, hvm⟩ : ∃ c,
        ((if raw ch.lower name then .ok (.str body) else (makeItems ch (f + 1) body).map finish).bind fun content =>
          receive ch (fun s => (makeItems ch (f + 1) s).map finish) name content) = .ok c ∧
        Good ch Q (.tag name attrs true c) ∧ cht c ≤ hts bits + 1 ∧
        ∀ (α : Type) (g : List Str → Str → List α), Additive ch.sp g → ∀ path,
          vm ch.lower g path (.tag name attrs true c) = (bs.map fun l => (name :: l.1, l.2)).flatMap (leafVal ch g path) := by
      cases hr : raw ch.lower name with
      | true =>
        have hv' : verbatim ch.lower name = true := by rw [← raw_iff]; exact hr
        have hnb := hv (.inl hv')
        have hbs' := reads_noTag hbs hnb
        subst hbs'
        refine ⟨.str body, ?_, ⟨⟨hk, fun _ => ⟨body, rfl⟩⟩, by simp, fun _ => ⟨body, rfl, hnb, ?_⟩, by rw [hr]; simp⟩, by simp [cht, ht], ?_⟩
        · rw [if_pos rfl]
          exact receive_raw hb _ name _ hr
        · refine hq ([name], body) (by simp) name rfl hv'
        · intro α g hg path
          have hnp : ch.lower name ≠ "p".toList := by
            intro h
            have := kind_p (ch := ch) hp
            unfold raw kindOf at hr
            rw [h] at hr
            exact absurd hr (by decide)
          rw [vm, if_neg hnp, vm]
          simp only [List.map_cons, List.map_nil, List.flatMap_cons, List.flatMap_nil, List.append_nil, leafVal]
          rw [List.filter_cons_of_pos (by simpa using hnp), List.filter_nil]
          have : AsIs ch.lower [name] = true := by simp [AsIs, hv']
          rw [this, if_pos rfl]
      | false =>
        have hv' : verbatim ch.lower name = false := by rw [← raw_iff]; exact hr
        obtain ⟨c, r1, r2, r3, r4, r5⟩ := receive_fresh hc hp f bits b2 (by omega) name hr
        refine ⟨c, ?_, ⟨⟨hk, ?_⟩, r3 ?_, by rw [hr]; simp, fun _ => r2⟩, r4, ?_⟩
        · rw [if_neg (by simp), b1]
          exact r1
        · intro hsym
          have hnb := hv (.inr (symbol_kind _ _ hsym))
          rw [make_noTag f body hnb] at b1
          cases b1
          have hfin := mk_noTag (ch := ch) f body hnb
          rw [make_noTag f body hnb] at hfin
          have hfin : finish (if body = [] then [] else [.str body]) = .str body := by
            injection hfin
          rw [hfin] at r1
          unfold receive at r1
          have hpar : paragraphed ch.lower name = false := by
            cases hx : paragraphed ch.lower name with
            | false => rfl
            | true =>
              unfold paragraphed at hx
              rw [hsym] at hx
              simp only [Bool.or_eq_true, decide_eq_true_eq] at hx
              rcases hx with rfl | hx
              · unfold kindOf at hsym; rw [hb] at hsym; exact absurd hsym (by decide)
              · exact absurd hx (by decide)
          simp only [hpar, Bool.false_eq_true, if_false, setVal] at r1
          split at r1 <;> (injection r1 with r1; exact ⟨_, r1.symm⟩)
        · intro h; exact b5 (hbox ((paragraphed_iff _ _).1 h))
        · intro α g hg path
          rw [vm, r5 α g hg, b6 α g hg, List.flatMap_map]
          congr 1
          funext l
          exact (leafVal_cons g path name l fun _ => hv').symm
    have hht : ht (.tag name attrs true c) ≤ hts bits + 2 := by rw [ht_tag]; omega
    refine ⟨_, ?_, fresh_cons hpre hgood m2, ?_, ?_, ?_, ?_⟩
    · rw [make_tag (f + 1) pre name attrs after body rest hpre hh hcl hk]
      revert hcont
      generalize (if raw ch.lower name then Except.ok (.str body) else (makeItems ch (f + 1) body).map finish) = e
      intro hcont
      cases e with
      | error e => cases hcont
      | ok v =>
        have hcont : receive ch (fun s => (makeItems ch (f + 1) s).map finish) name v = .ok c := hcont
        show (receive ch _ name v).bind _ = _
        rw [hcont]
        show (makeItems ch (f + 1) rest).map _ = _
        rw [m1]
        rfl
    · rw [hts_cons]; omega
    · intro k d hd
      rw [hts_cons]
      have e : pre ++ '@' :: name ++ attrs.getD [] ++ '{' :: after =
          (pre ++ '@' :: name ++ attrs.getD []) ++ '{' :: (body ++ '}' :: rest) := by rw [hcl.1]
      have e2 : pre ++ '@' :: name ++ attrs.getD [] ++ '{' :: after =
          (pre ++ '@' :: name ++ attrs.getD [] ++ '{' :: body ++ ['}']) ++ rest := by rw [hcl.1]; simp
      obtain ⟨hd1, hd2⟩ := depth_body _ body rest (e ▸ hd) hcl.2.1
      obtain ⟨k', hd3⟩ := depth_rest _ rest (e2 ▸ hd)
      have := b4 0 _ hd2
      have := m4 k' d hd3
      omega
    · intro _
      exact ⟨.tag name attrs true c, by simp, .inl ⟨_, _, _, _, rfl⟩⟩
    · intro α g hg path
      rw [vms_cons g hg path pre hgood more, hvm α g hg path, m6 α g hg path]
      simp only [List.cons_append, List.flatMap_cons, List.flatMap_append]
      congr 1
      simp [leafVal, AsIs]
  | bare pre name attrs rest rs hpre hh ho hsp hbox hrs ihr =>
    have hlen2 : (pre ++ '@' :: name ++ attrs.getD [] ++ rest).length ≥ rest.length + 1 := by simp; omega
    obtain ⟨f, rfl⟩ : ∃ f, fuel = f + 2 := ⟨fuel - 2, by omega⟩
    have hk := kind_ok ch.lower name hsp
    obtain ⟨more, m1, m2, m3, m4, m5, m6⟩ := ihr (fun l hl => hq l (by simp [hl])) (f + 1) (by omega)
    have hrec : receive ch (fun s => (makeItems ch (f + 1) s).map finish) name (.str []) = .ok (.str []) := by
      unfold receive
      have : paragraphed ch.lower name = false := by
        cases hx : paragraphed ch.lower name with
        | false => rfl
        | true => exact absurd ((paragraphed_iff _ _).1 hx) hbox
      simp only [this]
      cases proc ch.lower name <;> rfl
    have hgood : Good ch Q (.tag name attrs false (.str [])) :=
      ⟨⟨hk, fun _ => ⟨[], rfl⟩⟩, by simp, fun _ => ⟨[], rfl, NoTag.nil, hQ name⟩, fun _ => ⟨NoTag.nil, typo_nil⟩⟩
    refine ⟨_, ?_, fresh_cons hpre hgood m2, ?_, ?_, ?_, ?_⟩
    · rw [make_bare f pre name attrs rest hpre hh ho hk, hrec]
      show (makeItems ch (f + 1) rest).map _ = _
      rw [m1]
      rfl
    · rw [hts_cons, ht_tag]; simp only [cht, ht]; omega
    · intro k d hd
      rw [hts_cons, ht_tag]
      obtain ⟨k', hd3⟩ := depth_rest _ rest hd
      have := m4 k' d hd3
      simp only [cht, ht]; omega
    · intro _
      exact ⟨.tag name attrs false (.str []), by simp, .inl ⟨_, _, _, _, rfl⟩⟩
    · intro α g hg path
      rw [vms_cons g hg path pre hgood more, m6 α g hg path]
      simp only [vm, List.flatMap_cons]
      rw [hg.blank _ [] (by simp), List.nil_append]
      congr 1
      simp [leafVal, AsIs]

/-- The tree made of the text of a document. -/
theorem reads_body (hc : Classes ch.sp ch.word) (hp : ch.lower "p".toList = "p".toList)
    (hb : ch.lower "body".toList = "body".toList) (hQ : ∀ n, Q n []) {s ls} (h : Reads ch.word ch.sp ch.lower s ls)
    (hq : ∀ l ∈ ls, ∀ n, l.1.getLast? = some n → verbatim ch.lower n = true → Q n l.2) :
    ∃ c, makeBody ch s = .ok (.tag "body".toList none true c) ∧ Good ch Q c ∧
      ∀ (α : Type) (g : List Str → Str → List α), Additive ch.sp g → ∀ path,
        vm ch.lower g path c = ls.flatMap (leafVal ch g path) := by
  obtain ⟨items, h1, h2, h3, _, _, h6⟩ := reads_make hc hp hb hQ h hq (s.length + 1) (Nat.le_refl _)
  have hr : raw ch.lower "body".toList = false := by
    unfold raw kindOf; rw [hb]; rfl
  obtain ⟨c, r1, r2, _, _, r5⟩ := receive_fresh hc hp s.length items h2 (by omega) "body".toList hr
  refine ⟨c, ?_, r2, ?_⟩
  · unfold makeBody
    rw [h1]
    show (receive ch _ _ (finish items)).map _ = _
    rw [r1]; rfl
  · intro α g hg path
    rw [r5 α g hg path, h6 α g hg path]

end Verif.Page
