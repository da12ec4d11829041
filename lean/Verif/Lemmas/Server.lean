import Verif.Spec.Server
import Verif.Lemmas.Checkers
import Verif.Lemmas.Dict
import Verif.Lemmas.Starters
import Verif.Lemmas.Paths

/-! # Lemmas about the preview server -/

namespace Verif.Server

open Verif Verif.Paths

/-! ### Paths -/

theorem after_eq (p s r : Str) : after p s = some r ↔ s = p ++ r := by
  unfold after
  by_cases h : p.isPrefixOf s = true
  · rw [if_pos h]
    obtain ⟨t, rfl⟩ := List.isPrefixOf_iff_prefix.mp h
    simp [List.drop_left, eq_comm]
  · rw [if_neg h]
    constructor
    · intro h; cases h
    · rintro rfl
      exact absurd (List.isPrefixOf_iff_prefix.mpr ⟨r, rfl⟩) h

theorem after_none (p s : Str) : after p s = none ↔ ∀ r, s ≠ p ++ r := by
  constructor
  · intro h r hs
    rw [(after_eq p s r).mpr hs] at h; cases h
  · intro h
    cases hs : after p s with
    | none => rfl
    | some r => exact absurd ((after_eq p s r).mp hs) (h r)

theorem ends_iff (e r : Str) : e.isSuffixOf r = true ↔ ∃ s, r = s ++ e := by
  rw [List.isSuffixOf_iff_suffix]
  exact ⟨fun ⟨s, h⟩ => ⟨s, h.symm⟩, fun ⟨s, h⟩ => ⟨s, h.symm⟩⟩

theorem getLast?_append' (s : Str) {e : Str} (h : e ≠ []) : (s ++ e).getLast? = e.getLast? := by
  rw [List.getLast?_append, List.getLast?_eq_some_getLast h]; rfl

/-- Texts that end differently are different. -/
theorem ends_ne {s t e f : Str} (h : e.getLast? ≠ f.getLast? ∨ e.dropLast.getLast? ≠ f.dropLast.getLast?) (he : 2 ≤ e.length) (hf : 2 ≤ f.length) :
    s ++ e ≠ t ++ f := by
  intro hs
  have ne : e ≠ [] := by intro h; simp [h] at he
  have nf : f ≠ [] := by intro h; simp [h] at hf
  have de : e.dropLast ≠ [] := by intro h; have := congrArg List.length h; simp at this; omega
  have df : f.dropLast ≠ [] := by intro h; have := congrArg List.length h; simp at this; omega
  rcases h with h | h
  · have := congrArg List.getLast? hs
    rw [getLast?_append' _ ne, getLast?_append' _ nf] at this
    exact h this
  · have := congrArg (fun l => (List.dropLast l).getLast?) hs
    simp only [List.dropLast_append_of_ne_nil ne, List.dropLast_append_of_ne_nil nf] at this
    rw [getLast?_append' _ de, getLast?_append' _ df] at this
    exact h this

theorem own_route (r : Str) (h : Own r) : route ('/' :: r) =
    if ".dm".toList.isSuffixOf r then .source r false
    else if ".tex".toList.isSuffixOf r then .source r true
    else if ".html".toList.isSuffixOf r then .static .here r true
    else if ".epub".toList.isSuffixOf r then .static .here r true
    else .static .here r false := by
  obtain ⟨h1, h2, h3, h4⟩ := h
  have e1 : "/".toList = '/' :: [] := rfl
  have e2 : "/checkers".toList = '/' :: "checkers".toList := rfl
  have e3 : "/signals".toList = '/' :: "signals".toList := rfl
  have e4 : "/media/".toList = '/' :: "media/".toList := rfl
  have hm : after "/media/".toList ('/' :: r) = none := by
    rw [after_none, e4]
    intro x hx
    exact h4 x (List.cons.inj hx).2
  have hs : after "/".toList ('/' :: r) = some r := by rw [after_eq, e1]; rfl
  unfold route
  rw [if_neg (by rw [e1]; intro h; exact h1 (List.cons.inj h).2), if_neg (by rw [e2]; intro h; exact h2 (List.cons.inj h).2),
    if_neg (by rw [e3]; intro h; exact h3 (List.cons.inj h).2), hm, hs]

theorem route_handled (path : Str) : Handled path (route path) := by
  have e1 : "/".toList = '/' :: [] := rfl
  by_cases h1 : path = "/".toList
  · rw [h1]; exact .tree
  by_cases h2 : path = "/checkers".toList
  · rw [h2]; exact .checkers
  by_cases h3 : path = "/signals".toList
  · rw [h3]; exact .signals
  cases hm : after "/media/".toList path with
  | some r =>
    have := (after_eq _ _ _).mp hm
    have hr : route path = .static .server r false := by
      unfold route
      rw [if_neg h1, if_neg h2, if_neg h3, hm]
    rw [hr, this]; exact .media r
  | none =>
    cases hs : after "/".toList path with
    | none =>
      have hr : route path = .default := by
        unfold route
        rw [if_neg h1, if_neg h2, if_neg h3, hm, hs]
      rw [hr]
      exact .default _ fun r => by have := (after_none _ _).mp hs r; rw [e1] at this; exact this
    | some r =>
      have hp := (after_eq _ _ _).mp hs
      rw [e1] at hp
      have hp : path = '/' :: r := hp
      subst hp
      have ho : Own r := by
        refine ⟨?_, ?_, ?_, ?_⟩
        · rintro rfl; exact h1 rfl
        · rintro rfl; exact h2 rfl
        · rintro rfl; exact h3 rfl
        · rintro x rfl; exact (after_none _ _).mp hm x rfl
      rw [own_route r ho]
      by_cases d1 : ".dm".toList.isSuffixOf r = true
      · rw [if_pos d1]; obtain ⟨s, rfl⟩ := (ends_iff _ _).mp d1; exact .dm s ho
      rw [if_neg d1]
      by_cases d2 : ".tex".toList.isSuffixOf r = true
      · rw [if_pos d2]; obtain ⟨s, rfl⟩ := (ends_iff _ _).mp d2; exact .tex s ho
      rw [if_neg d2]
      by_cases d3 : ".html".toList.isSuffixOf r = true
      · rw [if_pos d3]; obtain ⟨s, rfl⟩ := (ends_iff _ _).mp d3; exact .html s ho
      rw [if_neg d3]
      by_cases d4 : ".epub".toList.isSuffixOf r = true
      · rw [if_pos d4]; obtain ⟨s, rfl⟩ := (ends_iff _ _).mp d4; exact .epub s ho
      rw [if_neg d4]
      refine .other r ho ?_
      intro e he s hs
      simp only [List.mem_cons, List.not_mem_nil, or_false] at he
      rcases he with rfl | rfl | rfl | rfl
      · exact d1 ((ends_iff _ _).mpr ⟨s, hs⟩)
      · exact d2 ((ends_iff _ _).mpr ⟨s, hs⟩)
      · exact d3 ((ends_iff _ _).mpr ⟨s, hs⟩)
      · exact d4 ((ends_iff _ _).mpr ⟨s, hs⟩)

theorem not_ends {s e f : Str} (h : e.getLast? ≠ f.getLast? ∨ e.dropLast.getLast? ≠ f.dropLast.getLast?) (he : 2 ≤ e.length) (hf : 2 ≤ f.length) :
    ¬ f.isSuffixOf (s ++ e) = true := by
  rw [ends_iff]
  rintro ⟨t, ht⟩
  exact ends_ne h he hf ht

theorem handled_route (path : Str) (h : Handler) (hh : Handled path h) : route path = h := by
  cases hh with
  | tree => decide
  | checkers => decide
  | signals => decide
  | media r =>
    have hm : after "/media/".toList ("/media/".toList ++ r) = some r := (after_eq _ _ _).mpr rfl
    unfold route
    have e4 : "/media/".toList = '/' :: 'm' :: "edia/".toList := rfl
    rw [if_neg, if_neg, if_neg, hm]
    · rw [e4]; intro h; have : some 'm' = _ := congrArg (fun l => l[1]?) h; exact absurd this (by decide)
    · rw [e4]; intro h; have : some 'm' = _ := congrArg (fun l => l[1]?) h; exact absurd this (by decide)
    · rw [e4]; intro h; have : some 'm' = _ := congrArg (fun l => l[1]?) h; exact absurd this (by decide)
  | dm s ho =>
    rw [own_route _ ho, if_pos ((ends_iff _ _).mpr ⟨s, rfl⟩)]
  | tex s ho =>
    rw [own_route _ ho, if_neg (not_ends (by decide) (by decide) (by decide)), if_pos ((ends_iff _ _).mpr ⟨s, rfl⟩)]
  | html s ho =>
    rw [own_route _ ho, if_neg (not_ends (by decide) (by decide) (by decide)), if_neg (not_ends (by decide) (by decide) (by decide)),
      if_pos ((ends_iff _ _).mpr ⟨s, rfl⟩)]
  | epub s ho =>
    rw [own_route _ ho, if_neg (not_ends (by decide) (by decide) (by decide)), if_neg (not_ends (by decide) (by decide) (by decide)),
      if_neg (not_ends (by decide) (by decide) (by decide)), if_pos ((ends_iff _ _).mpr ⟨s, rfl⟩)]
  | other r ho hn =>
    have h1 : ∀ e ∈ [".dm", ".tex", ".html", ".epub"], ¬ e.toList.isSuffixOf r = true := by
      intro e he
      rw [ends_iff]
      rintro ⟨s, hs⟩
      exact hn e he s hs
    rw [own_route _ ho, if_neg (h1 _ (by simp)), if_neg (h1 _ (by simp)), if_neg (h1 _ (by simp)), if_neg (h1 _ (by simp))]
  | default _ hn =>
    have hs : after "/".toList path = none := (after_none _ _).mpr hn
    have hm : after "/media/".toList path = none := (after_none _ _).mpr fun r hr => hn ("media/".toList ++ r) hr
    unfold route
    rw [if_neg, if_neg, if_neg, hm, hs]
    · rintro rfl; exact hn _ rfl
    · rintro rfl; exact hn _ rfl
    · rintro rfl; exact hn _ rfl

/-- The handlers that load the projects. -/
def loading : Handler → Bool
  | .tree => true
  | .static _ _ b => b
  | .source _ b => b
  | _ => false

theorem loads_iff (path : Str) : Loads path ↔ loading (route path) = true := by
  constructor
  · rintro (rfl | ⟨s, e, he, rfl, ho⟩)
    · decide
    · simp only [List.mem_cons, List.not_mem_nil, or_false] at he
      rcases he with rfl | rfl | rfl
      · rw [handled_route _ _ (.tex s ho)]; rfl
      · rw [handled_route _ _ (.html s ho)]; rfl
      · rw [handled_route _ _ (.epub s ho)]; rfl
  · intro h
    have := route_handled path
    generalize route path = x at this h
    cases this with
    | tree => exact .inl rfl
    | tex s ho => exact .inr ⟨s, ".tex", by simp, rfl, ho⟩
    | html s ho => exact .inr ⟨s, ".html", by simp, rfl, ho⟩
    | epub s ho => exact .inr ⟨s, ".epub", by simp, rfl, ho⟩
    | _ => exact absurd h (by simp [loading])

/-! ### The tree of documents -/

theorem links_ok (bs : Targets.Builders) (hn : bs.keys.Nodup) (hext : ∀ t b, (t, b) ∈ bs → t.head? = some '.' ∧ suffix b.out.full = t) :
    links bs (Targets.targetFilepaths bs).keys = .ok (bs.map fun kv => (kv.1, kv.2.out)) := by
  have hmap : (bs.map fun kv => (suffix kv.2.out.full, kv.2.out)) = bs.map fun kv => (kv.1, kv.2.out) := by
    refine List.map_congr_left fun kv hkv => ?_
    rw [(hext kv.1 kv.2 hkv).2]
  have hkeys : (bs.map fun kv => (kv.1, kv.2.out)).map (·.1) = bs.keys := by rw [List.map_map]; rfl
  have hupd : Targets.targetFilepaths bs = bs.map fun kv => (kv.1, kv.2.out) := by
    unfold Targets.targetFilepaths
    rw [hmap]
    have := Dict.update_append_new ([] : Dict Str TargetPath) (bs.map fun kv => (kv.1, kv.2.out))
      (by show ([] ++ List.map Prod.fst _ : List Str).Nodup; rw [List.nil_append, hkeys]; exact hn)
    simpa using this
  have hk : (Targets.targetFilepaths bs).keys = bs.map (·.1) := by rw [hupd]; exact hkeys
  rw [hk]
  have hget : ∀ t b, (t, b) ∈ bs → Targets.targetFilepath bs t = some b.out := by
    intro t b h
    unfold Targets.targetFilepath Targets.dot
    rw [if_pos (hext t b h).1, Dict.get?_of_mem bs hn t b h]; rfl
  have : ∀ l : List (Str × Targets.Builder), (∀ x ∈ l, x ∈ bs) → links bs (l.map (·.1)) = .ok (l.map fun kv => (kv.1, kv.2.out)) := by
    intro l
    induction l with
    | nil => intro _; rfl
    | cons x l ih =>
      intro h
      simp only [List.map_cons, links]
      rw [hget x.1 x.2 (h x (by simp)), ih fun y hy => h y (by simp [hy])]
  exact this bs fun _ h => h

theorem entry_inv (lv n : Nat) (d : Doc) (e : Entry) (h : entry lv n d = .ok e) :
    e.level = lv ∧ e.number = n ∧ e.title = d.title ∧ e.src = d.src ∧ d.mtime = some e.date ∧
    links d.builders (Targets.targetFilepaths d.builders).keys = .ok e.targets ∧ entries (lv + 1) 1 d.subs = .ok e.subs := by
  cases d with
  | mk title src bs mtime subs =>
    rw [entry] at h
    cases h1 : links bs (Targets.targetFilepaths bs).keys with
    | error _ => rw [h1] at h; cases h
    | ok ts =>
      rw [h1] at h
      cases mtime with
      | none => cases h
      | some m =>
        cases h2 : entries (lv + 1) 1 subs with
        | error _ => simp only [h2] at h; cases h
        | ok l =>
          simp only [h2] at h
          cases h
          exact ⟨rfl, rfl, rfl, rfl, rfl, h1, h2⟩

theorem entries_get (lv n : Nat) (ds : List Doc) (l : List Entry) (h : entries lv n ds = .ok l) (i : Nat) :
    (ds[i]? = none ∧ l[i]? = none) ∨
      ∃ d e, ds[i]? = some d ∧ l[i]? = some e ∧ entry lv (if lv = 1 then 1 else n + i) d = .ok e := by
  induction ds generalizing n l i with
  | nil => rw [entries] at h; cases h; exact .inl ⟨rfl, rfl⟩
  | cons d ds ih =>
    rw [entries] at h
    cases h1 : entry lv (if lv = 1 then 1 else n) d with
    | error _ => rw [h1] at h; cases h
    | ok e =>
      rw [h1] at h
      cases h2 : entries lv (n + 1) ds with
      | error _ => simp only [h2] at h; cases h
      | ok l2 =>
        simp only [h2] at h
        cases h
        cases i with
        | zero => exact .inr ⟨d, e, rfl, rfl, by simpa using h1⟩
        | succ i =>
          have := ih (n + 1) l2 h2 i
          simp only [List.getElem?_cons_succ]
          have e1 : n + 1 + i = n + (i + 1) := by omega
          rw [e1] at this
          exact this

theorem entries_at (pos : List Nat) (lv : Nat) (hlv : 1 ≤ lv) (ds : List Doc) (l : List Entry) (h : entries lv 1 ds = .ok l) :
    (nodeAt Doc.subs ds pos = none ∧ nodeAt Entry.subs l pos = none) ∨
      ∃ d e, nodeAt Doc.subs ds pos = some d ∧ nodeAt Entry.subs l pos = some e ∧
        entry (lv + pos.length - 1) (if lv + pos.length - 1 = 1 then 1 else pos.getLast?.getD 0 + 1) d = .ok e := by
  induction pos generalizing lv ds l with
  | nil => exact .inl ⟨rfl, rfl⟩
  | cons i is ih =>
    rcases entries_get lv 1 ds l h i with ⟨h1, h2⟩ | ⟨d, e, h1, h2, h3⟩
    · left
      simp only [nodeAt, h1, h2, and_self]
    · by_cases his : is = []
      · subst his
        right
        refine ⟨d, e, by simp [nodeAt, h1], by simp [nodeAt, h2], ?_⟩
        have e1 : lv + [i].length - 1 = lv := by simp
        rw [e1]
        have e2 : ([i].getLast?.getD 0 + 1) = 1 + i := by simp; omega
        rw [e2]; exact h3
      · have h4 := (entry_inv _ _ _ _ h3).2.2.2.2.2.2
        have := ih (lv + 1) (by omega) d.subs e.subs h4
        simp only [nodeAt, h1, h2, if_neg his]
        have e1 : lv + 1 + is.length - 1 = lv + (i :: is).length - 1 := by simp only [List.length_cons]; omega
        have e2 : (i :: is).getLast? = is.getLast? := by
          cases is with
          | nil => exact absurd rfl his
          | cons j js => rfl
        rw [e2, ← e1]
        exact this

theorem ready_sub {ds : List Doc} (h : ∀ pos d, nodeAt Doc.subs ds pos = some d → Ready d) {d : Doc} (hd : d ∈ ds) :
    Ready d ∧ ∀ pos d', nodeAt Doc.subs d.subs pos = some d' → Ready d' := by
  obtain ⟨i, hi⟩ := List.getElem?_of_mem hd
  refine ⟨h [i] d (by simp [nodeAt, hi]), fun pos d' hp => h (i :: pos) d' ?_⟩
  have : pos ≠ [] := by rintro rfl; simp [nodeAt] at hp
  simp only [nodeAt, hi, if_neg this, hp]

mutual
theorem entry_ok (d : Doc) (h : Ready d ∧ ∀ pos d', nodeAt Doc.subs d.subs pos = some d' → Ready d') (lv n : Nat) :
    ∃ e, entry lv n d = .ok e := by
  cases d with
  | mk title src bs mtime subs =>
    obtain ⟨⟨h1, h2, h3⟩, h4⟩ := h
    rw [entry, links_ok bs h2 h3]
    cases mtime with
    | none => exact absurd rfl h1
    | some m =>
      obtain ⟨l, hl⟩ := entries_ok subs (fun d hd => ready_sub h4 hd) (lv + 1) 1
      exact ⟨_, by rw [hl]⟩

theorem entries_ok (ds : List Doc) (h : ∀ d ∈ ds, Ready d ∧ ∀ pos d', nodeAt Doc.subs d.subs pos = some d' → Ready d') (lv n : Nat) :
    ∃ l, entries lv n ds = .ok l := by
  cases ds with
  | nil => exact ⟨[], by rw [entries]⟩
  | cons d ds =>
    obtain ⟨e, he⟩ := entry_ok d (h d (by simp)) lv (if lv = 1 then 1 else n)
    obtain ⟨l, hl⟩ := entries_ok ds (fun x hx => h x (by simp [hx])) lv (n + 1)
    exact ⟨e :: l, by simp only [entries, he, hl]⟩
end

/-! ### Checkers -/

theorem checks_get (r : Bool) (lv : Nat) (ds : List Checkers.Dep) (i : Nat) :
    (checks r lv ds)[i]? = (ds[i]?).map (check r lv) := by
  induction ds generalizing i with
  | nil => rw [checks]; rfl
  | cons d ds ih =>
    rw [checks]
    cases i with
    | zero => rfl
    | succ i => simp only [List.getElem?_cons_succ]; exact ih i

/-- Whether the parts of a dependency are required. -/
def requires : Checkers.Dep → Bool
  | .group .all _ _ => true
  | _ => false

theorem check_subs (r : Bool) (lv : Nat) (d : Checkers.Dep) : (check r lv d).subs = checks (requires d) (lv + 1) (parts d) := by
  cases d with
  | prog n a => rw [check]; simp only [Check.subs, parts]; rw [checks]
  | group k c ds => rw [check]; cases k <;> rfl

/-- Whether the node at a position is required, for the top given by `r`. -/
def requiredAt (r : Bool) (ds : List Checkers.Dep) (pos : List Nat) : Bool :=
  if pos.length = 1 then r else match nodeAt parts ds pos.dropLast with
    | some d => requires d
    | none => false

theorem checks_at (pos : List Nat) (r : Bool) (lv : Nat) (ds : List Checkers.Dep) :
    (nodeAt parts ds pos = none ∧ nodeAt Check.subs (checks r lv ds) pos = none) ∨
      ∃ d, nodeAt parts ds pos = some d ∧
        nodeAt Check.subs (checks r lv ds) pos = some (check (requiredAt r ds pos) (lv + pos.length - 1) d) := by
  induction pos generalizing r lv ds with
  | nil => exact .inl ⟨rfl, rfl⟩
  | cons i is ih =>
    simp only [nodeAt, checks_get]
    cases h : ds[i]? with
    | none => exact .inl ⟨rfl, rfl⟩
    | some d =>
      simp only [Option.map_some]
      by_cases his : is = []
      · subst his
        right
        refine ⟨d, by simp, ?_⟩
        simp [requiredAt]
      · rw [if_neg his, if_neg his, check_subs]
        have e1 : lv + 1 + is.length - 1 = lv + (i :: is).length - 1 := by simp only [List.length_cons]; omega
        have e2 : requiredAt (requires d) (parts d) is = requiredAt r ds (i :: is) := by
          cases is with
          | nil => exact absurd rfl his
          | cons j js =>
            unfold requiredAt
            rw [if_neg (by simp : ¬ (i :: j :: js).length = 1)]
            by_cases hj : js = []
            · subst hj
              simp [nodeAt, h]
            · have : ¬ (j :: js).length = 1 := by
                cases js with
                | nil => exact absurd rfl hj
                | cons => simp
              rw [if_neg this]
              have e3 : (i :: j :: js).dropLast = i :: (j :: js).dropLast := rfl
              have e4 : (j :: js).dropLast ≠ [] := by
                cases js with
                | nil => exact absurd rfl hj
                | cons => simp
              rw [e3]
              simp only [nodeAt, h, if_neg e4]
        have := ih (requires d) (lv + 1) (parts d)
        rw [e1, e2] at this
        exact this

/-! ### Requests -/

variable {R : Type} {dec : Str → Str}

theorem buildAll_ok (w : World R) (rs : List R) (ds : List Doc) (h : rs.map w.built = ds.map .ok) :
    buildAll w rs = (.ok ds, rs.map .built) := by
  induction rs generalizing ds with
  | nil =>
    cases ds with
    | nil => rfl
    | cons => cases h
  | cons r rs ih =>
    cases ds with
    | nil => cases h
    | cons d ds =>
      simp only [List.map_cons] at h
      obtain ⟨h1, h2⟩ := List.cons.inj h
      simp only [buildAll, h1, ih ds h2, List.map_cons]

theorem buildAll_error (w : World R) (rs : List R) (h : ∃ r ∈ rs, ∃ e, w.built r = .error e) : ∃ e, (buildAll w rs).1 = .error e := by
  induction rs with
  | nil => obtain ⟨r, hr, _⟩ := h; cases hr
  | cons r rs ih =>
    obtain ⟨x, hx, e, he⟩ := h
    rw [buildAll]
    cases h1 : w.built r with
    | error e => exact ⟨e, rfl⟩
    | ok d =>
      rcases List.mem_cons.mp hx with rfl | hx
      · rw [h1] at he; cases he
      · obtain ⟨e2, h2⟩ := ih ⟨x, hx, e, he⟩
        refine ⟨e2, ?_⟩
        generalize buildAll w rs = b at h2
        obtain ⟨b1, b2⟩ := b
        simp only at h2
        subst h2
        rfl

/-- The store after loading. -/
def stored (w : World R) : Option (List R) → Option (List R)
  | some rs => some rs
  | none => w.found.toOption

/-- The store after a request. -/
theorem request_store (w : World R) (path : Str) (store : Option (List R)) :
    (request dec w path store).2.1 =
      if loading (route path) then stored w store else store := by
  have hl : (loadProjects w store).2.1 = stored w store := by
    cases store with
    | some rs => rfl
    | none =>
      rw [loadProjects, stored]
      cases w.found <;> rfl
  have hload : ∀ g b, (load w b store g).2.1 = if b then stored w store else store := by
    intro g b
    unfold load
    cases b with
    | false => rfl
    | true =>
      simp only [if_true]
      rw [← hl]
      generalize loadProjects w store = x
      obtain ⟨x1, x2, x3⟩ := x
      cases x1 <;> rfl
  unfold request
  cases route path with
  | tree =>
    simp only [loading, if_true]
    rw [← hl]
    generalize loadProjects w store = x
    obtain ⟨x1, x2, x3⟩ := x
    cases x1 with
    | error => rfl
    | ok ds =>
      simp only
      cases entries 1 1 ds <;> rfl
  | static dir r b => exact hload _ b
  | source r b => exact hload _ b
  | checkers => rfl
  | signals => rfl
  | default => rfl

/-- The store after requests. -/
def final (dec : Str → Str) : List (World R × Str) → Option (List R) → Option (List R)
  | [], s => s
  | (w, path) :: rest, s => final dec rest (request dec w path s).2.1

theorem serve_append (hist : List (World R × Str)) (w : World R) (path : Str) (s : Option (List R)) :
    serve dec (hist ++ [(w, path)]) s = serve dec hist s ++
      [((request dec w path (final dec hist s)).1, (request dec w path (final dec hist s)).2.2)] := by
  induction hist generalizing s with
  | nil => rfl
  | cons x hist ih =>
    obtain ⟨v, p⟩ := x
    simp only [List.cons_append, serve, final, ih]

theorem final_append (pre : List (World R × Str)) (w : World R) (path : Str) (s : Option (List R)) :
    final dec (pre ++ [(w, path)]) s = (request dec w path (final dec pre s)).2.1 := by
  induction pre generalizing s with
  | nil => rfl
  | cons x pre ih => obtain ⟨v, p⟩ := x; simp only [List.cons_append, final]; exact ih _

theorem final_some (hist : List (World R × Str)) (rs : List R) : final dec hist (some rs) = some rs := by
  induction hist with
  | nil => rfl
  | cons x hist ih =>
    obtain ⟨w, p⟩ := x
    rw [final, request_store]
    have : (if loading (route p) = true then stored w (some rs) else some rs) = some rs := by split <;> rfl
    simp only [this]
    exact ih

theorem final_projects (hist : List (World R × Str)) (rs : List R) (h : Projects hist rs) : final dec hist none = some rs := by
  obtain ⟨pre, w, path, post, rfl, h1, h2, h3⟩ := h
  induction pre with
  | nil =>
    rw [List.nil_append, final, request_store, if_pos ((loads_iff path).mp h1), stored, h2]
    exact final_some post rs
  | cons x pre ih =>
    obtain ⟨v, p⟩ := x
    rw [List.cons_append, final, request_store]
    have : (if loading (route p) = true then stored v none else none) = none := by
      split
      · rename_i hl
        obtain ⟨e, he⟩ := h3 (v, p) (by simp) ((loads_iff p).mpr hl)
        simp only at he
        rw [stored, he]; rfl
      · rfl
    rw [this]
    exact ih fun q hq => h3 q (by simp [hq])

theorem final_none (hist : List (World R × Str)) (h : NoProjects hist) : final dec hist none = none := by
  induction hist with
  | nil => rfl
  | cons x hist ih =>
    obtain ⟨v, p⟩ := x
    rw [final, request_store]
    have : (if loading (route p) = true then stored v none else none) = none := by
      split
      · rename_i hl
        obtain ⟨e, he⟩ := h (v, p) (by simp) ((loads_iff p).mpr hl)
        simp only at he
        rw [stored, he]; rfl
      · rfl
    rw [this]
    exact ih fun q hq => h q (by simp [hq])

theorem request_not (w : World R) (path : Str) (s : Option (List R)) (h : loading (route path) = false) :
    (request dec w path s).2.2 = [] := by
  unfold request
  cases hr : route path with
  | tree => rw [hr] at h; cases h
  | static dir r b => rw [hr] at h; have : b = false := h; subst this; rfl
  | source r b => rw [hr] at h; have : b = false := h; subst this; rfl
  | checkers => rfl
  | signals => rfl
  | default => rfl

end Verif.Server
