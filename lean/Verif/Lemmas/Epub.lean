import Verif.Spec.Epub
import Verif.Lemmas.Scanner
import Verif.Lemmas.Links
import Verif.Lemmas.Lists

/-!
# Lemmas about epub files
-/

namespace Verif.Epub

open Verif Verif.Paths Verif.Scanner Verif.Links

/-! ### Without repetitions -/

section
variable {α κ : Type} [DecidableEq κ] (key : α → κ)

theorem uniqLoop_snoc (seen : List κ) (l : List α) (a : α) :
    Lists.uniqLoop key seen (l ++ [a]) = Lists.uniqLoop key seen l ++ (if key a ∈ seen ∨ ∃ b ∈ l, key b = key a then [] else [a]) := by
  rw [Lists.uniqLoop_append]
  congr 1
  have : (key a ∈ seen ++ l.map key) ↔ (key a ∈ seen ∨ ∃ b ∈ l, key b = key a) := by
    rw [List.mem_append, List.mem_map]
  rw [Lists.uniqLoop]
  by_cases h : key a ∈ seen ++ l.map key
  · rw [if_pos h, if_pos (this.1 h)]; rfl
  · rw [if_neg h, if_neg (fun x => h (this.2 x))]; rfl

theorem firstBy_uniq (l : List α) : FirstBy key l (Lists.uniq key l) := by
  have gen : ∀ r : List α, FirstBy key r.reverse (Lists.uniq key r.reverse) := by
    intro r
    induction r with
    | nil => exact .nil
    | cons a r ih =>
      unfold Lists.uniq at ih ⊢
      rw [List.reverse_cons, uniqLoop_snoc]
      by_cases h : ∃ b ∈ r.reverse, key b = key a
      · rw [if_pos (.inr h), List.append_nil]
        obtain ⟨b, hb, hk⟩ := h
        exact .again a b _ _ hb hk ih
      · rw [if_neg (by rintro (h' | h'); cases h'; exact h h')]
        exact .new a _ _ (fun b hb hk => h ⟨b, hb, hk⟩) ih
  have := gen l.reverse
  rwa [List.reverse_reverse] at this

theorem firstBy_eq {l r : List α} (h : FirstBy key l r) : r = Lists.uniq key l := by
  induction h with
  | nil => rfl
  | new a l r hn _ ih =>
    unfold Lists.uniq at ih ⊢
    rw [uniqLoop_snoc, if_neg (by rintro (h' | ⟨b, hb, hk⟩); cases h'; exact hn b hb hk), ← ih]
  | again a b l r hb hk _ ih =>
    unfold Lists.uniq at ih ⊢
    rw [uniqLoop_snoc, if_pos (.inr ⟨b, hb, hk⟩), ← ih, List.append_nil]

theorem uniqLoop_coarse {κ' : Type} [DecidableEq κ'] (g : κ → κ') (seen : List κ) (seen' : List κ') (l : List α)
    (h : ∀ k ∈ seen, g k ∈ seen') :
    Lists.uniqLoop (fun a => g (key a)) seen' (Lists.uniqLoop key seen l) = Lists.uniqLoop (fun a => g (key a)) seen' l := by
  induction l generalizing seen seen' with
  | nil => rfl
  | cons a l ih =>
    rw [Lists.uniqLoop.eq_2 key, Lists.uniqLoop.eq_2 (fun a => g (key a))]
    by_cases h1 : key a ∈ seen
    · rw [if_pos h1, if_pos (h _ h1), ih seen seen' h]
    · rw [if_neg h1, Lists.uniqLoop]
      by_cases h2 : g (key a) ∈ seen'
      · rw [if_pos h2, if_pos h2]
        apply ih
        intro k hk
        rcases List.mem_cons.1 hk with rfl | hk
        · exact h2
        · exact h k hk
      · rw [if_neg h2, if_neg h2]
        congr 1
        apply ih
        intro k hk
        rcases List.mem_cons.1 hk with rfl | hk
        · simp
        · simp [h k hk]

theorem uniq_coarse {κ' : Type} [DecidableEq κ'] (g : κ → κ') (l : List α) :
    Lists.uniq (fun a => g (key a)) (Lists.uniq key l) = Lists.uniq (fun a => g (key a)) l :=
  uniqLoop_coarse key g [] [] l (by simp)

theorem uniq_append_uniq (l f : List α) : Lists.uniq key (Lists.uniq key l ++ f) = Lists.uniq key (l ++ f) := by
  have e := uniq_coarse key id l
  simp only [id] at e
  unfold Lists.uniq at e ⊢
  rw [Lists.uniqLoop_append, Lists.uniqLoop_append, e]
  congr 1
  apply Lists.uniqLoop_congr
  intro k
  simp only [List.nil_append, List.mem_map]
  constructor
  · rintro ⟨a, ha, rfl⟩
    exact ⟨a, (Lists.uniqLoop_sublist key [] l).subset ha, rfl⟩
  · rintro ⟨a, ha, rfl⟩
    rcases (Lists.uniqLoop_keys key [] l).2.2 a ha with h | h
    · cases h
    · rw [List.mem_map] at h; exact h

omit [DecidableEq κ] in
theorem firstBy_sublist {l r : List α} (h : FirstBy key l r) : r.Sublist l := by
  induction h with
  | nil => exact .refl _
  | new a l r _ _ ih => exact ih.append (.refl _)
  | again a b l r _ _ _ ih => exact ih.trans (List.sublist_append_left _ _)

omit [DecidableEq κ] in
theorem firstBy_all {l r : List α} (h : FirstBy key l r) (a : α) (ha : a ∈ l) : ∃ b ∈ r, key b = key a := by
  induction h generalizing a with
  | nil => cases ha
  | new x l r _ _ ih =>
    rcases List.mem_append.1 ha with ha | ha
    · obtain ⟨b, hb, hk⟩ := ih a ha; exact ⟨b, by simp [hb], hk⟩
    · rw [List.mem_singleton.1 ha]; exact ⟨x, by simp, rfl⟩
  | again x y l r hy hk _ ih =>
    rcases List.mem_append.1 ha with ha | ha
    · exact ih a ha
    · rw [List.mem_singleton.1 ha]
      obtain ⟨b, hb, hk'⟩ := ih y hy
      exact ⟨b, hb, hk'.trans hk⟩

omit [DecidableEq κ] in
theorem firstBy_distinct {l r : List α} (h : FirstBy key l r) : (r.map key).Nodup := by
  induction h with
  | nil => simp
  | new a l r hn hr ih =>
    rw [List.map_append, List.nodup_append]
    refine ⟨ih, by simp, ?_⟩
    intro x hx y hy
    rw [List.mem_map] at hx
    obtain ⟨b, hb, rfl⟩ := hx
    rw [List.map_singleton, List.mem_singleton] at hy
    subst hy
    exact hn b ((firstBy_sublist key hr).subset hb)
  | again _ _ _ _ _ _ _ ih => exact ih

end

/-! ### Parameters -/

theorem pathsOf_paths (l : List Param) : PathsOf l (paths l) := by
  induction l with
  | nil => exact .nil
  | cons p l ih =>
    cases p with
    | path p => exact .path p l _ ih
    | value v => exact .value v l _ ih

theorem pathsOf_eq {l : List Param} {r : List PyPath} (h : PathsOf l r) : r = paths l := by
  induction h with
  | nil => rfl
  | path p l r _ ih => rw [ih]; rfl
  | value v l r _ ih => rw [ih]; rfl

theorem mem_paths (l : List Param) (p : PyPath) : p ∈ paths l ↔ Param.path p ∈ l := by
  induction l with
  | nil => simp [paths]
  | cons q l ih =>
    cases q with
    | path q =>
      have e : paths (.path q :: l) = q :: paths l := rfl
      rw [e, List.mem_cons, List.mem_cons, ih]; simp
    | value v =>
      have e : paths (.value v :: l) = paths l := rfl
      rw [e, List.mem_cons, ih]; simp

theorem paths_append (l l' : List Param) : paths (l ++ l') = paths l ++ paths l' := by simp [paths]

theorem paths_found (l : List SourcePath) : paths (l.map fun s => Param.path (.source s)) = l.map .source := by
  induction l with
  | nil => rfl
  | cons s l ih => rw [List.map_cons, List.map_cons, ← ih]; rfl

theorem paths_unresolved (resolve : Path → Path) (seen : List Path) (l : List Param) :
    paths (unresolved resolve seen l) = Lists.uniqLoop (fun p : PyPath => resolve p.full) seen (paths l) := by
  induction l generalizing seen with
  | nil => rfl
  | cons p l ih =>
    cases p with
    | value v => rw [unresolved]; exact ih seen
    | path p =>
      have e : paths (.path p :: l) = p :: paths l := rfl
      rw [unresolved, e, Lists.uniqLoop]
      by_cases h : resolve p.full ∈ seen
      · rw [if_pos h, if_pos h]; exact ih seen
      · rw [if_neg h, if_neg h, ← ih]; rfl

theorem paths_uniq (seen : List (Path ⊕ Str)) (seen' : List Path) (h : ∀ x, .inl x ∈ seen ↔ x ∈ seen') (l : List Param) :
    paths (Lists.uniqLoop Param.key seen l) = Lists.uniqLoop PyPath.full seen' (paths l) := by
  induction l generalizing seen seen' with
  | nil => rfl
  | cons p l ih =>
    cases p with
    | value v =>
      have e : paths (.value v :: l) = paths l := rfl
      rw [e, Lists.uniqLoop]
      by_cases hv : Param.key (.value v) ∈ seen
      · rw [if_pos hv]; exact ih seen seen' h
      · rw [if_neg hv]
        exact ih _ seen' (fun x => by rw [List.mem_cons, h]; simp [Param.key])
    | path p =>
      have e : paths (.path p :: l) = p :: paths l := rfl
      rw [e, Lists.uniqLoop, Lists.uniqLoop]
      by_cases hv : Param.key (.path p) ∈ seen
      · rw [if_pos hv, if_pos ((h _).1 hv)]; exact ih seen seen' h
      · rw [if_neg hv, if_neg (fun x => hv ((h _).2 x)), ← ih (Param.key (.path p) :: seen) (p.full :: seen') (fun x => by
          rw [List.mem_cons, List.mem_cons, h]; simp [Param.key])]
        rfl

/-- The location that counts. -/
abbrev real (resolve : Path → Path) (p : PyPath) : Path := resolve p.full

theorem paths_parameters (resolve : Path → Path) (l : List Param) : paths (parameters resolve l) = Lists.uniq (real resolve) (paths l) := by
  unfold parameters
  rw [paths_unresolved]
  have : paths (Lists.uniq Param.key l) = Lists.uniq PyPath.full (paths l) := paths_uniq [] [] (by simp) l
  rw [this]
  exact uniq_coarse PyPath.full resolve (paths l)

theorem paths_scanned (sp : Char → Bool) (files : Scanner.Files) (resolve : Path → Path) (stored stored' : List Param)
    (h : scanned sp files resolve stored = .ok stored') : ∃ found,
      scan sp files true (Lists.uniq (real resolve) (paths stored)) = .ok found ∧
      paths (parameters resolve stored') = Lists.uniq (real resolve) (paths stored ++ found.map .source) := by
  unfold scanned at h
  simp only [paths_parameters] at h
  cases hs : scan sp files true (Lists.uniq (real resolve) (paths stored)) with
  | error e => rw [hs] at h; cases h
  | ok found =>
    rw [hs] at h
    cases h
    refine ⟨found, rfl, ?_⟩
    rw [paths_parameters]
    have : paths (Lists.uniq Param.key (parameters resolve stored ++ found.map fun s => .path (.source s))) =
        Lists.uniq PyPath.full (paths (parameters resolve stored ++ found.map fun s => .path (.source s))) := paths_uniq [] [] (by simp) _
    rw [this]
    have e := uniq_coarse PyPath.full resolve (paths (parameters resolve stored ++ found.map fun s => .path (.source s)))
    refine Eq.trans e ?_
    rw [paths_append, paths_found, paths_parameters]
    exact uniq_append_uniq (real resolve) _ _

/-! ### Normal paths -/

theorem snoc_inj {d d' : List Str} {x x' : Str} (h : d ++ [x] = d' ++ [x']) : d = d' ∧ x = x' := by
  have := List.append_inj' h rfl
  exact ⟨this.1, by simpa using this.2⟩

theorem within_split (d a b e : List Str) (h : Within d (a ++ b) e) : ∃ m, Within d a m ∧ Within m b e := by
  induction a generalizing d with
  | nil => exact ⟨d, .here d, h⟩
  | cons c a ih =>
    rw [List.cons_append] at h
    cases h with
    | up x h =>
      obtain ⟨m, h1, h2⟩ := ih _ h
      exact ⟨m, .up x h1, h2⟩
    | down _ hn h =>
      obtain ⟨m, h1, h2⟩ := ih _ h
      exact ⟨m, .down c hn h1, h2⟩

theorem within_join (d a b m e : List Str) (h1 : Within d a m) (h2 : Within m b e) : Within d (a ++ b) e := by
  induction h1 with
  | here d => exact h2
  | up x _ ih => exact .up x (ih h2)
  | down n hn _ ih => exact .down n hn (ih h2)

theorem within_det (d l e e' : List Str) (h : Within d l e) (h' : Within d l e') : e = e' := by
  induction h with
  | here d => cases h'; rfl
  | @up d l e x _ ih =>
    generalize hd : d ++ [x] = d2 at h'
    cases h' with
    | up x' h' => obtain ⟨rfl, rfl⟩ := snoc_inj hd; exact ih h'
    | down _ hn _ => exact absurd rfl hn
  | down n hn _ ih =>
    cases h' with
    | up => exact absurd rfl hn
    | down _ _ h' => exact ih h'

/-- The start may be deeper. -/
theorem within_deeper (r d l e : List Str) (h : Within d l e) : Within (r ++ d) l (r ++ e) := by
  induction h with
  | here d => exact .here _
  | up x _ ih => rw [← List.append_assoc]; exact .up x ih
  | down n hn _ ih => exact .down n hn (by rw [List.append_assoc]; exact ih)

theorem within_fold (d l e : List Str) (hd : ['.', '.'] ∉ d) (h : Within d l e) : l.foldl (normStep false) d = e := by
  induction h with
  | here d => rfl
  | @up d l e x _ ih =>
    have hx : x ≠ ['.', '.'] := fun e => hd (by simp [e])
    rw [List.foldl_cons, normStep, if_neg (by simp [hx]), List.dropLast_concat]
    exact ih (fun h => hd (by simp [h]))
  | @down d l e n hn _ ih =>
    rw [List.foldl_cons, normStep, if_pos (.inl hn)]
    exact ih (by simp only [List.mem_append, List.mem_singleton, not_or]; exact ⟨hd, fun e => hn e.symm⟩)

theorem within_norm (d acc l e : List Str) (h : Within d (acc ++ l) e) : Within d (l.foldl (normStep false) acc) e := by
  induction l generalizing acc with
  | nil => simpa using h
  | cons c l ih =>
    rw [List.foldl_cons]
    apply ih
    unfold normStep
    by_cases hc : c ≠ ['.', '.'] ∨ (false = false ∧ acc = []) ∨ acc.getLast? = some ['.', '.']
    · rw [if_pos hc]; simpa using h
    · rw [if_neg hc]
      have hc1 : c = ['.', '.'] := Classical.byContradiction fun h => hc (.inl h)
      have hc2 : acc ≠ [] := fun h => hc (.inr (.inl ⟨rfl, h⟩))
      have hc3 : acc.getLast hc2 ≠ ['.', '.'] := fun h => hc (.inr (.inr (by rw [List.getLast?_eq_some_getLast hc2, h])))
      subst hc1
      conv at h => rw [← List.dropLast_concat_getLast hc2]
      rw [List.append_assoc] at h
      obtain ⟨m, h1, h2⟩ := within_split _ _ _ _ h
      refine within_join _ _ _ _ _ h1 ?_
      generalize acc.getLast hc2 = x at h2 hc3
      rw [List.singleton_append] at h2
      cases h2 with
      | up => exact absurd rfl hc3
      | down _ hn h2 =>
        generalize hd : m ++ [x] = d2 at h2
        cases h2 with
        | up x h2 => obtain ⟨rfl, -⟩ := snoc_inj hd; exact h2
        | down _ hn _ => exact absurd rfl hn

theorem within_walk (d l e : List Str) (hl : ∀ n ∈ l, n ≠ ['.']) (h : Within d l e) : Walk d l e := by
  induction h with
  | here d => exact .here d
  | up x _ ih => exact .up x (ih (fun n hn => hl n (by simp [hn])))
  | down n hn _ ih => exact .down n (hl n (by simp)) hn (ih (fun n hn => hl n (by simp [hn])))

theorem within_mem (d l e : List Str) (h : Within d l e) (n : Str) (hn : n ∈ e) : n ∈ d ∨ n ∈ l := by
  induction h with
  | here d => exact .inl hn
  | up x _ ih => rcases ih hn with h | h <;> simp [h]
  | down m _ _ ih =>
    rcases ih hn with h | h
    · rcases List.mem_append.1 h with h | h
      · exact .inl h
      · rw [List.mem_singleton] at h; simp [h]
    · simp [h]

theorem fold_mem (abs : Bool) (acc l : List Str) (n : Str) (h : n ∈ l.foldl (normStep abs) acc) : n ∈ acc ∨ n ∈ l := by
  induction l generalizing acc with
  | nil => exact .inl h
  | cons c l ih =>
    rcases ih _ h with h | h
    · unfold normStep at h
      by_cases hc : c ≠ ['.', '.'] ∨ (abs = false ∧ acc = []) ∨ acc.getLast? = some ['.', '.']
      · rw [if_pos hc] at h
        rcases List.mem_append.1 h with h | h
        · exact .inl h
        · rw [List.mem_singleton] at h; simp [h]
      · rw [if_neg hc] at h; exact .inl ((List.dropLast_sublist _).subset h)
    · simp [h]

theorem xhtml_parse : parse "xhtml".toList = ⟨false, ["xhtml".toList]⟩ := by decide

theorem archived_place (sub : Path) (hg : Good sub) (ha : sub.abs = false) (e : List Str) (hne : e ≠ []) (h : Within ["xhtml".toList] sub.parts e) :
    Slashed (archived (div (parse "xhtml".toList) sub)) e := by
  have e1 : (norm (div (parse "xhtml".toList) sub)).parts = e := by
    rw [xhtml_parse, div, ha]
    show (["xhtml".toList] ++ sub.parts).foldl (normStep false) [] = e
    rw [List.foldl_append]
    exact within_fold _ _ _ (by decide) h
  unfold archived
  rw [e1, toStr]
  simp only [Bool.false_eq_true, if_false, if_neg hne]
  apply slashed_join _ hne
  intro n hn
  rcases within_mem _ _ _ h n hn with h | h
  · rw [List.mem_singleton] at h; subst h; decide
  · exact (hg n h).2.2

theorem item_place (sub : Path) (hg : Good sub) (ha : sub.abs = false) (e : List Str) (h : Within ["xhtml".toList] sub.parts e) :
    ∃ names, Slashed (toStr (norm sub)) names ∧ Walk ["xhtml".toList] names e := by
  have h1 := within_norm ["xhtml".toList] [] sub.parts e h
  have hname : ∀ n ∈ sub.parts.foldl (normStep false) [], IsName n := by
    intro n hn
    rcases fold_mem _ _ _ _ hn with h | h
    · cases h
    · exact hg n h
  have e1 : norm sub = ⟨false, sub.parts.foldl (normStep false) []⟩ := by rw [norm, ha]
  have h2 := within_walk _ _ _ (fun n hn => (hname n hn).2.1) h1
  rw [e1, toStr]
  simp only [Bool.false_eq_true, if_false]
  by_cases hne : sub.parts.foldl (normStep false) [] = []
  · rw [if_pos hne]
    rw [hne] at h2
    exact ⟨[['.']], .one _ (by decide), .stay h2⟩
  · rw [if_neg hne]
    exact ⟨_, slashed_join _ hne (fun n hn => (hname n hn).2.2), h2⟩

/-! ### The archive -/

theorem fine_sub (p : PyPath) (h : Fine p) : ∃ root sub, Tracked p root sub ∧ subpath p = .ok sub ∧
    arcName p = .ok (div (parse "xhtml".toList) sub) ∧ Good sub ∧ sub.abs = false := by
  obtain ⟨hg, root, sub, ht⟩ := h
  cases ht with
  | source root sub => exact ⟨_, _, .source root sub, rfl, rfl, hg.2.1, hg.2.2⟩
  | target r t sub => exact ⟨_, _, .target r t sub, rfl, rfl, hg.2.2.1, hg.2.2.2.1⟩

theorem tracked_det {p : PyPath} {r r' s s' : Path} (h : Tracked p r s) (h' : Tracked p r' s') : r = r' ∧ s = s' := by
  cases h <;> cases h' <;> exact ⟨rfl, rfl⟩

theorem writeAll_written (files : Scanner.Files) (ps : List PyPath) (hf : ∀ p ∈ ps, Fine p) (l : List (Str × Content))
    (h : writeAll files ps = .ok l) : Written ps l ∧ ∀ p ∈ ps, files p.full ≠ none := by
  induction ps generalizing l with
  | nil => cases h; exact ⟨.nil, by simp⟩
  | cons p ps ih =>
    obtain ⟨root, sub, h1, h2, h3, h4, h5⟩ := fine_sub p (hf p (by simp))
    rw [writeAll, h3] at h
    simp only at h
    by_cases hn : files p.full = none
    · rw [if_pos hn] at h; cases h
    · rw [if_neg hn] at h
      cases hw : writeAll files ps with
      | error e => rw [hw] at h; cases h
      | ok l' =>
        rw [hw] at h
        cases h
        obtain ⟨g1, g2⟩ := ih (fun q hq => hf q (by simp [hq])) l' hw
        refine ⟨.cons p ps _ l' ?_ g1, ?_⟩
        · rintro e hne ⟨r', s', ht, hw⟩
          obtain ⟨-, rfl⟩ := tracked_det h1 ht
          exact archived_place sub h4 h5 e hne hw
        · intro q hq
          rcases List.mem_cons.1 hq with rfl | hq
          · exact hn
          · exact g2 q hq

theorem writeAll_ok (files : Scanner.Files) (ps : List PyPath) (hf : ∀ p ∈ ps, Fine p) (hx : ∀ p ∈ ps, files p.full ≠ none) :
    ∃ l, writeAll files ps = .ok l := by
  induction ps with
  | nil => exact ⟨[], rfl⟩
  | cons p ps ih =>
    obtain ⟨root, sub, h1, h2, h3, h4, h5⟩ := fine_sub p (hf p (by simp))
    obtain ⟨l, hl⟩ := ih (fun q hq => hf q (by simp [hq])) (fun q hq => hx q (by simp [hq]))
    rw [writeAll, h3]
    simp only
    rw [if_neg (hx p (by simp)), hl]
    exact ⟨_, rfl⟩

theorem written_mem {ps : List PyPath} {l : List (Str × Content)} (h : Written ps l) (p : PyPath) (hp : p ∈ ps) :
    ∃ n, (n, .file p) ∈ l ∧ ∀ e, e ≠ [] → Place p e → Slashed n e := by
  induction h with
  | nil => cases hp
  | cons q ps n l hn _ ih =>
    rcases List.mem_cons.1 hp with rfl | hp
    · exact ⟨n, by simp, hn⟩
    · obtain ⟨m, h1, h2⟩ := ih hp
      exact ⟨m, by simp [h1], h2⟩

theorem written_files {ps : List PyPath} {l : List (Str × Content)} (h : Written ps l) (n : Str) (c : Content) (hc : (n, c) ∈ l) :
    ∃ p ∈ ps, c = .file p := by
  induction h with
  | nil => cases hc
  | cons q ps m l hm _ ih =>
    rcases List.mem_cons.1 hc with hc | hc
    · cases hc; exact ⟨q, by simp, rfl⟩
    · obtain ⟨p, hp, rfl⟩ := ih hc
      exact ⟨p, by simp [hp], rfl⟩

/-! ### The package file -/

theorem named_iff (p : PyPath) (n : String) (hn : n.toList ≠ []) : Named p n ↔ name p.full = n.toList := by
  unfold Named name
  cases h : p.full.parts.getLast? with
  | none => simp only [Option.getD_none]; constructor
            · intro h; cases h
            · intro h; exact absurd h.symm hn
  | some x => simp

theorem frontFirst_reading (ps : List PyPath) : Reading ps (frontFirst ps) := by
  unfold frontFirst
  have ht : ∀ p, Named p "title.xhtml" ↔ name p.full = "title.xhtml".toList := fun p => named_iff p _ (by decide)
  have hc : ∀ p, Named p "toc.xhtml" ↔ name p.full = "toc.xhtml".toList := fun p => named_iff p _ (by decide)
  refine .mk _ _ _ List.filter_sublist ?_ List.filter_sublist ?_ List.filter_sublist ?_
  · intro p; rw [List.mem_filter, ht, decide_eq_true_iff]
  · intro p; rw [List.mem_filter, hc, decide_eq_true_iff]
  · intro p
    rw [List.mem_filter]
    have : (!(List.filter (fun p : PyPath => decide (name p.full = "title.xhtml".toList)) ps ++
        List.filter (fun p : PyPath => decide (name p.full = "toc.xhtml".toList)) ps).any fun q => decide (q.full = p.full)) = true ∧ p ∈ ps ↔
        p ∈ ps ∧ ¬ Named p "title.xhtml" ∧ ¬ Named p "toc.xhtml" := by
      rw [ht, hc]
      constructor
      · rintro ⟨h, hp⟩
        rw [Bool.not_eq_true', List.any_eq_false] at h
        refine ⟨hp, fun hn => h p ?_ (decide_eq_true rfl), fun hn => h p ?_ (decide_eq_true rfl)⟩
        · exact List.mem_append_left _ (List.mem_filter.2 ⟨hp, decide_eq_true hn⟩)
        · exact List.mem_append_right _ (List.mem_filter.2 ⟨hp, decide_eq_true hn⟩)
      · rintro ⟨hp, h1, h2⟩
        refine ⟨?_, hp⟩
        rw [Bool.not_eq_true', List.any_eq_false]
        intro q hq he
        have he := of_decide_eq_true he
        rcases List.mem_append.1 hq with hq | hq
        · have := (List.mem_filter.1 hq).2
          rw [he] at this
          exact h1 (of_decide_eq_true this)
        · have := (List.mem_filter.1 hq).2
          rw [he] at this
          exact h2 (of_decide_eq_true this)
    rw [and_comm]
    exact this

theorem reading_mem {ps xs : List PyPath} (h : Reading ps xs) (p : PyPath) : p ∈ xs ↔ p ∈ ps := by
  cases h with
  | mk ts cs os _ h1 _ h2 _ h3 =>
    rw [List.mem_append, List.mem_append, h1, h2, h3]
    constructor
    · rintro ((h | h) | h) <;> exact h.1
    · intro hp
      by_cases ht : Named p "title.xhtml"
      · exact .inl (.inl ⟨hp, ht⟩)
      · by_cases hc : Named p "toc.xhtml"
        · exact .inl (.inr ⟨hp, hc⟩)
        · exact .inr ⟨hp, ht, hc⟩

theorem dictList_items (slug : Str → Str) (sfx : Str) (ps : List PyPath) (hf : ∀ p ∈ ps, Fine p) :
    ∃ xs items, dictList slug ps sfx = .ok items ∧ OfType sfx ps xs ∧ ItemsFor slug xs items := by
  induction ps with
  | nil => exact ⟨[], [], rfl, .nil, .nil⟩
  | cons p ps ih =>
    obtain ⟨xs, items, h1, h2, h3⟩ := ih (fun q hq => hf q (by simp [hq]))
    obtain ⟨root, sub, g1, g2, g3, g4, g5⟩ := fine_sub p (hf p (by simp))
    rw [dictList]
    by_cases hs : suffix p.full = sfx
    · rw [if_neg (fun h => h hs), g2, h1]
      refine ⟨p :: xs, _, rfl, .keep p _ _ hs h2, .cons p _ _ _ ?_ h3⟩
      refine ⟨?_, ?_, ?_, ?_⟩
      · rintro e ⟨r', s', ht, hw⟩
        obtain ⟨-, rfl⟩ := tracked_det g1 ht
        exact item_place sub g4 g5 e hw
      · rw [named_iff p _ (by decide)]
        exact decide_eq_true_iff
      · intro h
        simp only at h ⊢
        rw [if_pos h]
      · intro h
        simp only at h ⊢
        rw [if_neg (by rw [h]; exact Bool.false_ne_true)]
    · rw [if_pos hs]
      exact ⟨xs, items, h1, .drop p _ _ hs h2, h3⟩

theorem package_ok (slug : Str → Str) (ps : List PyPath) (hf : ∀ p ∈ ps, Fine p) : ∃ pkg xs a b c, package slug ps = .ok pkg ∧ Reading ps xs ∧
    OfType ".xhtml".toList xs a ∧ ItemsFor slug a pkg.xhtml ∧ OfType ".svg".toList xs b ∧ ItemsFor slug b pkg.svg ∧
    OfType ".css".toList xs c ∧ ItemsFor slug c pkg.css := by
  have hr := frontFirst_reading ps
  have hf' : ∀ p ∈ frontFirst ps, Fine p := fun p hp => hf p ((reading_mem hr p).1 hp)
  obtain ⟨a, i1, h1, h2, h3⟩ := dictList_items slug ".xhtml".toList _ hf'
  obtain ⟨b, i2, k1, k2, k3⟩ := dictList_items slug ".svg".toList _ hf'
  obtain ⟨c, i3, l1, l2, l3⟩ := dictList_items slug ".css".toList _ hf'
  unfold package
  simp only [h1, k1, l1]
  exact ⟨⟨i1, i2, i3⟩, _, a, b, c, rfl, hr, h2, h3, k2, k3, l2, l3⟩

theorem ofType_mem {sfx : Str} {l r : List PyPath} (h : OfType sfx l r) (p : PyPath) : p ∈ r ↔ p ∈ l ∧ suffix p.full = sfx := by
  induction h with
  | nil => simp
  | keep q l r hs _ ih =>
    rw [List.mem_cons, List.mem_cons, ih]
    constructor
    · rintro (rfl | h)
      · exact ⟨.inl rfl, hs⟩
      · exact ⟨.inr h.1, h.2⟩
    · rintro ⟨rfl | h, h'⟩
      · exact .inl rfl
      · exact .inr ⟨h, h'⟩
  | drop q l r hs _ ih =>
    rw [List.mem_cons, ih]
    constructor
    · rintro h; exact ⟨.inr h.1, h.2⟩
    · rintro ⟨rfl | h, h'⟩
      · exact absurd h' hs
      · exact ⟨h, h'⟩

theorem itemsFor_mem {slug : Str → Str} {ps : List PyPath} {l : List Item} (h : ItemsFor slug ps l) :
    (∀ p ∈ ps, ∃ i ∈ l, ItemFor slug p i) ∧ ∀ i ∈ l, ∃ p ∈ ps, ItemFor slug p i := by
  induction h with
  | nil => simp
  | cons p i ps l hi _ ih =>
    constructor
    · intro q hq
      rcases List.mem_cons.1 hq with rfl | hq
      · exact ⟨i, by simp, hi⟩
      · obtain ⟨j, hj, h⟩ := ih.1 q hq; exact ⟨j, by simp [hj], h⟩
    · intro j hj
      rcases List.mem_cons.1 hj with rfl | hj
      · exact ⟨p, by simp, hi⟩
      · obtain ⟨q, hq, h⟩ := ih.2 j hj; exact ⟨q, by simp [hq], h⟩

/-! ### The build -/

theorem lead_mem {files : Scanner.Files} {root dir : Path} {ns : List Str} {l : List SourcePath} (h : LeadTo files root dir ns l) :
    (∀ x ∈ l, ∃ n ∈ ns, LeadsTo files root dir n x) ∧ ∀ n ∈ ns, ∃ x ∈ l, LeadsTo files root dir n x := by
  induction h with
  | nil => simp
  | cons s p ss ps h _ ih =>
    constructor
    · intro x hx
      rcases List.mem_cons.1 hx with rfl | hx
      · exact ⟨s, by simp, h⟩
      · obtain ⟨n, hn, h⟩ := ih.1 x hx; exact ⟨n, by simp [hn], h⟩
    · intro n hn
      rcases List.mem_cons.1 hn with rfl | hn
      · exact ⟨p, by simp, h⟩
      · obtain ⟨x, hx, h⟩ := ih.2 n hn; exact ⟨x, by simp [hx], h⟩

theorem scanned_mem {files : Scanner.Files} {names : Str → List Str → Prop} {ps : List PyPath} {l : List SourcePath} (h : Scanned files names ps l)
    (x : SourcePath) (hx : x ∈ l) : ∃ p ∈ ps, ∃ root dir text ns n, IsPage files p root dir text ∧ names text ns ∧ n ∈ ns ∧
      LeadsTo files root dir n x := by
  induction h with
  | nil => cases hx
  | page p root dir text ns l ls ps hp hns hl _ ih =>
    rcases List.mem_append.1 hx with hx | hx
    · obtain ⟨n, hn, h⟩ := (lead_mem hl).1 x hx
      exact ⟨p, by simp, root, dir, text, ns, n, hp, hns, hn, h⟩
    · obtain ⟨q, hq, h⟩ := ih hx
      exact ⟨q, by simp [hq], h⟩
  | other p ps ls hp _ ih =>
    obtain ⟨q, hq, h⟩ := ih hx
    exact ⟨q, by simp [hq], h⟩

theorem scanned_page {files : Scanner.Files} {names : Str → List Str → Prop} {ps : List PyPath} {l : List SourcePath} (h : Scanned files names ps l)
    (p : PyPath) (hp : p ∈ ps) (root dir : Path) (text : Str) (hpage : IsPage files p root dir text) :
    ∃ ns, names text ns ∧ ∀ n ∈ ns, ∃ x ∈ l, LeadsTo files root dir n x := by
  induction h with
  | nil => cases hp
  | page q r d t ns l ls ps hq hns hl _ ih =>
    rcases List.mem_cons.1 hp with rfl | hp
    · obtain ⟨rfl, rfl, rfl⟩ := page_unique files p _ _ _ _ _ _ hq hpage
      refine ⟨ns, hns, ?_⟩
      intro n hn
      obtain ⟨x, hx, h⟩ := (lead_mem hl).2 n hn
      exact ⟨x, by simp [hx], h⟩
    · obtain ⟨ns', h1, h2⟩ := ih hp
      refine ⟨ns', h1, ?_⟩
      intro n hn
      obtain ⟨x, hx, h⟩ := h2 n hn
      exact ⟨x, by simp [hx], h⟩
  | other q ps ls hq _ ih =>
    rcases List.mem_cons.1 hp with rfl | hp
    · exact absurd hpage (hq _ _ _)
    · exact ih hp

theorem leads_good {files : Scanner.Files} {root dir : Path} {n : Str} {x : SourcePath} (hr : Good root) (hd : Good dir) (ha : dir.abs = false)
    (h : LeadsTo files root dir n x) : x.root = root ∧ Good x.sub ∧ x.sub.abs = false ∧ files x.full ≠ none := by
  have habs : ∀ rel : Str, rel.head? ≠ some '/' → (parse rel).abs = false := by
    intro rel hr
    simp only [parse, decide_eq_false_iff_not]
    exact hr
  cases h with
  | dir a b rel t e1 e2 e3 e4 e5 =>
    exact ⟨rfl, good_div _ _ hd (parse_good rel), by rw [div, habs rel e3]; exact ha, by
      show files (div root (div dir (parse rel))) ≠ none
      rw [e5]; simp⟩
  | root a b rel t e1 e2 e3 e4 e5 e6 =>
    exact ⟨rfl, parse_good rel, habs rel e3, by
      show files (div root (parse rel)) ≠ none
      rw [e6]; simp⟩

theorem found_fine {files : Scanner.Files} {names : Str → List Str → Prop} {ps : List PyPath} {l : List SourcePath} (h : Scanned files names ps l)
    (hf : ∀ p ∈ ps, Fine p) (x : SourcePath) (hx : x ∈ l) : Fine (.source x) ∧ files x.full ≠ none := by
  obtain ⟨p, hp, root, dir, text, ns, n, h1, h2, h3, h4⟩ := scanned_mem h x hx
  obtain ⟨g1, g2, g3⟩ := page_good files p (hf p hp).1 root dir text h1
  obtain ⟨k1, k2, k3, k4⟩ := leads_good g1 g2 g3 h4
  exact ⟨⟨⟨by rw [k1]; exact g1, k2, k3⟩, _, _, .source x.root x.sub⟩, k4⟩

/-- What a build gives. -/
theorem build_ok (sp : Char → Bool) (hgt : sp '>' = false) (hh : sp 'h' = false) (hs : sp 's' = false) (files : Scanner.Files)
    (slug : Str → Str) (resolve : Path → Path) (stored : List Param) (hf : ∀ p, .path p ∈ stored → Fine p)
    (hall : ∀ p, .path p ∈ stored → ∀ root dir text, IsPage files p root dir text → ∃ names, Names sp text names)
    (entries : List (Str × Content)) (h : build sp files slug resolve stored = .ok entries) :
    IsEpub files (Names sp) slug resolve stored entries := by
  unfold build at h
  cases h1 : scanned sp files resolve stored with
  | error e => rw [h1] at h; cases h
  | ok stored' =>
    rw [h1] at h
    simp only at h
    obtain ⟨found, hfound, hins⟩ := paths_scanned sp files resolve stored stored' h1
    rw [hins] at h
    have hpages := firstBy_uniq (real resolve) (paths stored)
    have hsub := (firstBy_sublist _ hpages).subset
    have hfp : ∀ p ∈ Lists.uniq (real resolve) (paths stored), Fine p := fun p hp => hf p ((mem_paths _ _).1 (hsub hp))
    have hscan : Scanned files (Names sp) (Lists.uniq (real resolve) (paths stored)) found :=
      (scan_iff sp files true (Names sp) _ (fun p hp => (hfp p hp).1) (fun text l h => names_stubs sp hgt hh hs text l h)
        (fun p hp => hall p ((mem_paths _ _).1 (hsub hp))) found).1 hfound
    have hfb := firstBy_uniq (real resolve) (paths stored ++ found.map .source)
    have hfine : ∀ p ∈ Lists.uniq (real resolve) (paths stored ++ found.map .source), Fine p := by
      intro p hp
      rcases List.mem_append.1 ((firstBy_sublist _ hfb).subset hp) with hp | hp
      · exact hf p ((mem_paths _ _).1 hp)
      · obtain ⟨x, hx, rfl⟩ := List.mem_map.1 hp
        exact (found_fine hscan hfp x hx).1
    obtain ⟨pkg, xs, a, b, c, g0, g1, g2, g3, g4, g5, g6, g7⟩ := package_ok slug _ hfine
    rw [g0] at h
    simp only at h
    cases hw : writeAll files (Lists.uniq (real resolve) (paths stored ++ found.map .source)) with
    | error e => rw [hw] at h; cases h
    | ok rest =>
      rw [hw] at h
      simp only [Except.ok.injEq] at h
      subst h
      obtain ⟨k1, k2⟩ := writeAll_written files _ hfine rest hw
      have e1 : archived (parse "META-INF/container.xml".toList) = "META-INF/container.xml".toList := by decide
      have e2 : archived (div (parse "xhtml".toList) (parse "content.opf".toList)) = "xhtml/content.opf".toList := by decide
      rw [e1, e2]
      exact .mk _ _ _ xs a b c found pkg rest (pathsOf_paths stored) hpages hscan hfb k2 g1 g2 g3 g4 g5 g6 g7 k1

theorem firstBy_prefix {α κ : Type} [DecidableEq κ] (key : α → κ) (l f r0 r : List α) (h0 : FirstBy key l r0) (h : FirstBy key (l ++ f) r) (a : α)
    (ha : a ∈ r0) : a ∈ r := by
  rw [firstBy_eq key h0] at ha
  rw [firstBy_eq key h, Lists.uniq, Lists.uniqLoop_append]
  exact List.mem_append.2 (.inl ha)

theorem nodup_key {α κ : Type} (key : α → κ) (l : List α) (h : (l.map key).Nodup) (a b : α) (ha : a ∈ l) (hb : b ∈ l) (e : key a = key b) :
    a = b := by
  induction l with
  | nil => cases ha
  | cons c l ih =>
    rw [List.map_cons, List.nodup_cons] at h
    rcases List.mem_cons.1 ha with rfl | ha' <;> rcases List.mem_cons.1 hb with rfl | hb'
    · rfl
    · exact absurd (List.mem_map.2 ⟨b, hb', e.symm⟩) h.1
    · exact absurd (List.mem_map.2 ⟨a, ha', e⟩) h.1
    · exact ih h.2 ha' hb'

/-- A path that is stored and archived is one of those scanned. -/
theorem stored_page {α κ : Type} [DecidableEq κ] (key : α → κ) (l f r0 r : List α) (h0 : FirstBy key l r0) (h : FirstBy key (l ++ f) r) (a : α)
    (ha : a ∈ l) (hr : a ∈ r) : a ∈ r0 := by
  obtain ⟨b, hb, e⟩ := firstBy_all key h0 a ha
  have := nodup_key key r (firstBy_distinct key h) b a (firstBy_prefix key l f r0 r h0 h b hb) hr e
  rw [← this]; exact hb

theorem nodup_of_map {α κ : Type} (key : α → κ) (l : List α) (h : (l.map key).Nodup) : l.Nodup := by
  induction l with
  | nil => exact List.nodup_nil
  | cons a l ih =>
    rw [List.map_cons, List.nodup_cons] at h
    exact List.nodup_cons.2 ⟨(fun hm => h.1 (List.mem_map.2 ⟨a, hm, rfl⟩)), ih h.2⟩

def fileOf : Str × Content → Option PyPath
  | (_, .file p) => some p
  | (_, .mimetype) => none
  | (_, .container) => none
  | (_, .package _) => none

/-- The entries for files are those of the paths, in order. -/
theorem written_order {ps : List PyPath} {l : List (Str × Content)} (h : Written ps l) : ps = l.filterMap fileOf := by
  induction h with
  | nil => rfl
  | cons q ps m l hm _ ih => rw [List.filterMap_cons]; simp only [fileOf]; rw [← ih]

theorem itemsFor_append {slug : Str → Str} {l l' : List PyPath} {i i' : List Item} (h : ItemsFor slug l i) (h' : ItemsFor slug l' i') :
    ItemsFor slug (l ++ l') (i ++ i') := by
  induction h with
  | nil => exact h'
  | cons p i ps l hi _ ih => exact .cons _ _ _ _ hi ih

theorem reading_nodup {ins xs : List PyPath} (hd : ins.Nodup) (hr : Reading ins xs) : xs.Nodup := by
  cases hr with
  | mk ts cs os h1 h2 h3 h4 h5 h6 =>
    refine List.nodup_append.2 ⟨List.nodup_append.2 ⟨hd.sublist h1, hd.sublist h3, ?_⟩, hd.sublist h5, ?_⟩
    · intro p hp q hq e
      subst e
      have e1 := ((h2 p).1 hp).2
      have e2 := ((h4 p).1 hq).2
      unfold Named at e1 e2
      rw [e1] at e2
      exact absurd e2 (by decide)
    · intro p hp q hq e
      subst e
      rcases List.mem_append.1 hp with hp | hp
      · exact ((h6 p).1 hq).2.1 ((h2 p).1 hp).2
      · exact ((h6 p).1 hq).2.2 ((h4 p).1 hp).2

theorem ofType_sublist {sfx : Str} {l r : List PyPath} (h : OfType sfx l r) : r.Sublist l := by
  induction h with
  | nil => exact List.Sublist.refl _
  | keep p l r _ _ ih => exact ih.cons_cons p
  | drop p l r _ _ ih => exact ih.cons p

theorem items_nodup {slug : Str → Str} {ps : List PyPath} {l : List Item} (h : ItemsFor slug ps l) (hd : ps.Nodup)
    (hids : ∀ p ∈ ps, ∀ q ∈ ps, ∀ i j, ItemFor slug p i → ItemFor slug q j → i.id = j.id → p = q) : (l.map Item.id).Nodup := by
  induction h with
  | nil => simp
  | cons p i ps l hi hl ih =>
    rw [List.nodup_cons] at hd
    rw [List.map_cons, List.nodup_cons]
    refine ⟨?_, ih hd.2 (fun p hp q hq => hids p (by simp [hp]) q (by simp [hq]))⟩
    intro hmem
    obtain ⟨j, hj, e⟩ := List.mem_map.1 hmem
    obtain ⟨q, hq, hqj⟩ := (itemsFor_mem hl).2 j hj
    have := hids p (by simp) q (by simp [hq]) i j hi hqj e.symm
    subst this
    exact hd.1 hq

/-- Items with the same identifier are those of the same file. -/
theorem same_id {slug : Str → Str} (hinj : ∀ a b, slug a = slug b → a = b) (htoc : ∀ a, slug a ≠ "toc".toList) {p q : PyPath} {i j : Item}
    (hi : ItemFor slug p i) (hj : ItemFor slug q j) (h : i.id = j.id) :
    (Named p "toc.xhtml" ∧ Named q "toc.xhtml") ∨ ∀ e e', Place p e → Place q e' → e = e' := by
  cases h1 : i.isToc with
  | true =>
    cases h2 : j.isToc with
    | true => exact .inl ⟨hi.toc.1 h1, hj.toc.1 h2⟩
    | false =>
      rw [hi.tocId h1, hj.otherId h2] at h
      exact absurd h.symm (htoc _)
  | false =>
    cases h2 : j.isToc with
    | true =>
      rw [hi.otherId h1, hj.tocId h2] at h
      exact absurd h (htoc _)
    | false =>
      rw [hi.otherId h1, hj.otherId h2] at h
      have hsub := hinj _ _ h
      refine .inr ?_
      intro e e' he he'
      obtain ⟨ns, s1, w1⟩ := hi.leads e he
      obtain ⟨ns', s2, w2⟩ := hj.leads e' he'
      rw [hsub] at s1
      have := s1.det s2
      subst this
      exact w1.det w2

theorem scanned_exists {files : Scanner.Files} {names : Str → List Str → Prop} (ps : List PyPath)
    (h : ∀ p ∈ ps, ∀ root dir text, IsPage files p root dir text → ∃ ns, names text ns ∧ ∀ n ∈ ns, ∃ x, LeadsTo files root dir n x) :
    ∃ l, Scanned files names ps l := by
  have lead : ∀ root dir (ns : List Str), (∀ n ∈ ns, ∃ x, LeadsTo files root dir n x) → ∃ l, LeadTo files root dir ns l := by
    intro root dir ns
    induction ns with
    | nil => intro _; exact ⟨[], .nil⟩
    | cons n ns ih =>
      intro h
      obtain ⟨x, hx⟩ := h n (by simp)
      obtain ⟨l, hl⟩ := ih (fun m hm => h m (by simp [hm]))
      exact ⟨x :: l, .cons _ _ _ _ hx hl⟩
  induction ps with
  | nil => exact ⟨[], .nil⟩
  | cons p ps ih =>
    obtain ⟨ls, hls⟩ := ih (fun q hq => h q (by simp [hq]))
    by_cases hp : ∃ root dir text, IsPage files p root dir text
    · obtain ⟨root, dir, text, hp⟩ := hp
      obtain ⟨ns, hns, hl⟩ := h p (by simp) root dir text hp
      obtain ⟨l, hl⟩ := lead root dir ns hl
      exact ⟨l ++ ls, .page p root dir text ns l ls ps hp hns hl hls⟩
    · exact ⟨ls, .other p ps ls (fun root dir text hq => hp ⟨root, dir, text, hq⟩) hls⟩

theorem build_success (sp : Char → Bool) (hgt : sp '>' = false) (hh : sp 'h' = false) (hs : sp 's' = false) (files : Scanner.Files)
    (slug : Str → Str) (resolve : Path → Path) (stored : List Param) (hf : ∀ p, .path p ∈ stored → Fine p)
    (hx : ∀ p, .path p ∈ stored → files p.full ≠ none) (hl : Epub.Linked files (Names sp) stored) :
    ∃ entries, build sp files slug resolve stored = .ok entries := by
  have hpages := firstBy_uniq (real resolve) (paths stored)
  have hsub : ∀ p ∈ Lists.uniq (real resolve) (paths stored), Param.path p ∈ stored := fun p hp =>
    (mem_paths _ _).1 ((firstBy_sublist _ hpages).subset hp)
  obtain ⟨found, hscan⟩ := scanned_exists (files := files) (names := Names sp) (Lists.uniq (real resolve) (paths stored))
    (fun p hp root dir text hpage => hl p root dir text (hsub p hp) hpage)
  have hok := (scan_iff sp files true (Names sp) _ (fun p hp => (hf p (hsub p hp)).1) (fun text l h => names_stubs sp hgt hh hs text l h)
    (fun p hp root dir text hpage => by
      obtain ⟨ns, h, _⟩ := hl p root dir text (hsub p hp) hpage
      exact ⟨ns, h⟩) found).2 hscan
  have hsc : ∃ stored', scanned sp files resolve stored = .ok stored' := by
    unfold scanned
    simp only [paths_parameters]
    rw [hok]
    exact ⟨_, rfl⟩
  obtain ⟨stored', h1⟩ := hsc
  obtain ⟨found', hfound, hins⟩ := paths_scanned sp files resolve stored stored' h1
  rw [hok] at hfound
  cases hfound
  have hfb := firstBy_uniq (real resolve) (paths stored ++ found.map .source)
  have hfine : ∀ p ∈ Lists.uniq (real resolve) (paths stored ++ found.map .source), Fine p ∧ files p.full ≠ none := by
    intro p hp
    rcases List.mem_append.1 ((firstBy_sublist _ hfb).subset hp) with hp | hp
    · exact ⟨hf p ((mem_paths _ _).1 hp), hx p ((mem_paths _ _).1 hp)⟩
    · obtain ⟨x, hx, rfl⟩ := List.mem_map.1 hp
      exact found_fine hscan (fun p hp => hf p (hsub p hp)) x hx
  obtain ⟨pkg, xs, a, b, c, g0, -⟩ := package_ok slug _ (fun p hp => (hfine p hp).1)
  obtain ⟨rest, hr⟩ := writeAll_ok files _ (fun p hp => (hfine p hp).1) (fun p hp => (hfine p hp).2)
  unfold build
  rw [h1]
  simp only
  rw [hins, g0]
  simp only
  rw [hr]
  exact ⟨_, rfl⟩

end Verif.Epub
