import Verif.Spec.Jinja
import Verif.Lemmas.CopyFile
import Verif.Lemmas.Paths
import Verif.Lemmas.Starters

/-! # Lemmas for rendered files -/

namespace Verif.Jinja

open Verif Verif.Decider
open Verif.CopyFile (Param World write record)
open Verif.Paths (Path parse toStr div parent withSuffix)

variable {c : Cfg} {enc : Str → Bytes} {ld : Loader}

/-! ### Templates -/

theorem reaches_head (h : Reaches ld t v) : t = v ∨ ∃ n u, some n ∈ t.refs ∧ ld.load n = some u ∧ Reaches ld u v := by
  induction h with
  | refl => exact .inl rfl
  | step u v n _ h1 h2 ih =>
    right
    rcases ih with rfl | ⟨m, w, k1, k2, k3⟩
    · exact ⟨n, v, h1, h2, .refl⟩
    · exact ⟨m, w, k1, k2, .step u v n k3 h1 h2⟩

theorem reaches_cons (n : Str) (hn : some n ∈ t.refs) (hl : ld.load n = some u) (h : Reaches ld u v) : Reaches ld t v := by
  induction h with
  | refl => exact .step t u n .refl hn hl
  | step u v n _ h1 h2 ih => exact .step u v n ih h1 h2

theorem parents_ok (rs : List (Option Str)) (ts : List Tpl) (h : parents ld rs = .ok ts) :
    (∀ r ∈ rs, ∃ n v, r = some n ∧ ld.load n = some v) ∧ ∀ v, v ∈ ts ↔ ∃ n, some n ∈ rs ∧ ld.load n = some v := by
  induction rs generalizing ts with
  | nil => cases h; simp
  | cons r rs ih =>
    cases r with
    | none => simp [parents] at h
    | some n =>
      rw [parents] at h
      cases hl : ld.load n with
      | none => rw [hl] at h; cases h
      | some t =>
        rw [hl] at h
        cases hp : parents ld rs with
        | error e => simp only [hp] at h; cases h
        | ok ts' =>
          simp only [hp] at h
          cases h
          obtain ⟨h1, h2⟩ := ih ts' hp
          constructor
          · intro r hr
            rcases List.mem_cons.1 hr with rfl | hr
            · exact ⟨n, t, rfl, hl⟩
            · exact h1 r hr
          · intro v
            rw [List.mem_cons, h2]
            constructor
            · rintro (rfl | ⟨m, k1, k2⟩)
              · exact ⟨n, List.mem_cons_self, hl⟩
              · exact ⟨m, List.mem_cons_of_mem _ k1, k2⟩
            · rintro ⟨m, k1, k2⟩
              rcases List.mem_cons.1 k1 with k1 | k1
              · cases k1
                rw [hl] at k2; cases k2; exact .inl rfl
              · exact .inr ⟨m, k1, k2⟩

theorem parents_exist (rs : List (Option Str)) (h : ∀ r ∈ rs, ∃ n v, r = some n ∧ ld.load n = some v) :
    ∃ ts, parents ld rs = .ok ts := by
  induction rs with
  | nil => exact ⟨[], rfl⟩
  | cons r rs ih =>
    obtain ⟨n, v, rfl, hl⟩ := h r List.mem_cons_self
    obtain ⟨ts, hts⟩ := ih fun r hr => h r (List.mem_cons_of_mem _ hr)
    exact ⟨v :: ts, by simp only [parents, hl, hts]⟩

theorem mapM_ok {α β ε : Type} (f : α → Except ε β) (l : List α) (r : List β) (h : l.mapM f = .ok r) :
    (∀ a ∈ l, ∃ b ∈ r, f a = .ok b) ∧ ∀ b ∈ r, ∃ a ∈ l, f a = .ok b := by
  induction l generalizing r with
  | nil => cases h; simp
  | cons a l ih =>
    rw [List.mapM_cons] at h
    cases ha : f a with
    | error e => rw [ha] at h; cases h
    | ok b =>
      rw [ha] at h
      cases hl : l.mapM f with
      | error e => simp only [hl] at h; cases h
      | ok bs =>
        simp only [hl] at h
        cases h
        obtain ⟨h1, h2⟩ := ih bs hl
        constructor
        · intro x hx
          rcases List.mem_cons.1 hx with rfl | hx
          · exact ⟨b, List.mem_cons_self, ha⟩
          · obtain ⟨y, hy, e⟩ := h1 x hx
            exact ⟨y, List.mem_cons_of_mem _ hy, e⟩
        · intro y hy
          rcases List.mem_cons.1 hy with rfl | hy
          · exact ⟨a, List.mem_cons_self, ha⟩
          · obtain ⟨x, hx, e⟩ := h2 y hy
            exact ⟨x, List.mem_cons_of_mem _ hx, e⟩

theorem mapM_exist {α β ε : Type} (f : α → Except ε β) (l : List α) (h : ∀ a ∈ l, ∃ b, f a = .ok b) : ∃ r, l.mapM f = .ok r := by
  induction l with
  | nil => exact ⟨[], rfl⟩
  | cons a l ih =>
    obtain ⟨b, hb⟩ := h a List.mem_cons_self
    obtain ⟨r, hr⟩ := ih fun x hx => h x (List.mem_cons_of_mem _ hx)
    refine ⟨b :: r, ?_⟩
    rw [List.mapM_cons, hb, hr]; rfl

theorem files_inv (d : Nat) (t : Tpl) (files : List Path) (h : templateFiles ld (d + 1) t = .ok files) :
    ∃ ts fs, parents ld t.refs = .ok ts ∧ ts.mapM (templateFiles ld d) = .ok fs ∧ files = t.file :: fs.flatten := by
  rw [templateFiles] at h
  cases hp : parents ld t.refs with
  | error e => rw [hp] at h; cases h
  | ok ts =>
    rw [hp] at h
    simp only at h
    cases hm : ts.mapM (templateFiles ld d) with
    | error e => rw [hm] at h; cases h
    | ok fs =>
      rw [hm] at h; cases h
      exact ⟨ts, fs, rfl, hm, rfl⟩

theorem files_mem (d : Nat) (t : Tpl) (files : List Path) (h : templateFiles ld d t = .ok files) (f : Path) :
    f ∈ files ↔ ∃ u, Reaches ld t u ∧ u.file = f := by
  induction d generalizing t files with
  | zero => cases h
  | succ d ih =>
    obtain ⟨ts, fs, hp, hm, rfl⟩ := files_inv d t files h
    obtain ⟨_, p2⟩ := parents_ok _ _ hp
    obtain ⟨m1, m2⟩ := mapM_ok _ _ _ hm
    rw [List.mem_cons, List.mem_flatten]
    constructor
    · rintro (rfl | ⟨l, hl, hf⟩)
      · exact ⟨t, .refl, rfl⟩
      · obtain ⟨v, hv, he⟩ := m2 l hl
        obtain ⟨n, hn, hl⟩ := (p2 v).1 hv
        obtain ⟨u, hu, e⟩ := (ih v l he).1 hf
        exact ⟨u, reaches_cons n hn hl hu, e⟩
    · rintro ⟨u, hu, rfl⟩
      rcases reaches_head hu with rfl | ⟨n, v, hn, hl, hv⟩
      · exact .inl rfl
      · obtain ⟨l, hl', he⟩ := m1 v ((p2 v).2 ⟨n, hn, hl⟩)
        exact .inr ⟨l, hl', (ih v l he).2 ⟨u, hv, rfl⟩⟩

theorem files_iff (d : Nat) (t : Tpl) : (∃ files, templateFiles ld d t = .ok files) ↔ Static ld t ∧ Height ld t d := by
  induction d generalizing t with
  | zero =>
    constructor
    · rintro ⟨_, h⟩; cases h
    · rintro ⟨_, h⟩; exact h.elim
  | succ d ih =>
    constructor
    · rintro ⟨files, h⟩
      obtain ⟨ts, fs, hp, hm, _⟩ := files_inv d t files h
      obtain ⟨p1, p2⟩ := parents_ok _ _ hp
      obtain ⟨m1, _⟩ := mapM_ok _ _ _ hm
      constructor
      · intro u hu
        rcases reaches_head hu with rfl | ⟨n, v, hn, hl, hv⟩
        · exact p1
        · obtain ⟨l, _, he⟩ := m1 v ((p2 v).2 ⟨n, hn, hl⟩)
          exact ((ih v).1 ⟨l, he⟩).1 u hv
      · intro n v hn hl
        obtain ⟨l, _, he⟩ := m1 v ((p2 v).2 ⟨n, hn, hl⟩)
        exact ((ih v).1 ⟨l, he⟩).2
    · rintro ⟨hs, hh⟩
      obtain ⟨ts, hp⟩ := parents_exist t.refs (hs t .refl)
      obtain ⟨_, p2⟩ := parents_ok _ _ hp
      obtain ⟨fs, hm⟩ := mapM_exist (templateFiles ld d) ts fun v hv => by
        obtain ⟨n, hn, hl⟩ := (p2 v).1 hv
        exact (ih v).2 ⟨fun u hu => hs u (reaches_cons n hn hl hu), hh n v hn hl⟩
      exact ⟨t.file :: fs.flatten, by simp only [templateFiles, hp, hm]⟩

theorem height_reaches (h : Reaches ld t u) : ∀ d, Height ld t d → ∃ k, k ≤ d ∧ Height ld u k := by
  induction h with
  | refl => exact fun d hd => ⟨d, Nat.le_refl _, hd⟩
  | step u v n _ h1 h2 ih =>
    intro d hd
    obtain ⟨k, hk, hu⟩ := ih d hd
    cases k with
    | zero => exact hu.elim
    | succ k => exact ⟨k, by omega, hu n v h1 h2⟩

/-- A template that refers to itself has no bound on its chains of references. -/
theorem height_cycle (h : Follows ld t t) (d : Nat) : ¬ Height ld t d := by
  obtain ⟨u, n, hr, hn, hl⟩ := h
  induction d using Nat.strongRecOn with
  | ind d ih =>
    intro hd
    obtain ⟨k, hk, hu⟩ := height_reaches hr d hd
    cases k with
    | zero => exact hu.elim
    | succ k => exact ih k (by omega) (hu n t hn hl)

/-! ### The choice of the template -/

theorem select_iff (ns : List Str) (t : Tpl) : select ld ns = .ok t ↔ Chosen ld ns t := by
  induction ns with
  | nil =>
    constructor
    · intro h; cases h
    · rintro ⟨pre, n, post, h, _⟩; cases pre <;> cases h
  | cons m ns ih =>
    rw [select]
    cases hm : ld.load m with
    | some u =>
      simp only
      constructor
      · intro h; cases h
        exact ⟨[], m, ns, rfl, by simp, hm⟩
      · rintro ⟨pre, n, post, h, h1, h2⟩
        cases pre with
        | nil => cases h; rw [hm] at h2; cases h2; rfl
        | cons x pre =>
          cases h
          rw [h1 m List.mem_cons_self] at hm; cases hm
    | none =>
      simp only
      rw [ih]
      constructor
      · rintro ⟨pre, n, post, rfl, h1, h2⟩
        refine ⟨m :: pre, n, post, rfl, ?_, h2⟩
        intro x hx
        rcases List.mem_cons.1 hx with rfl | hx
        · exact hm
        · exact h1 x hx
      · rintro ⟨pre, n, post, h, h1, h2⟩
        cases pre with
        | nil => cases h; rw [hm] at h2; cases h2
        | cons x pre =>
          cases h
          exact ⟨pre, n, post, rfl, fun y hy => h1 y (List.mem_cons_of_mem _ hy), h2⟩

/-! ### What is watched -/

theorem scanAll_ok (scan : Param → Except Err (List Param)) (ps l : List Param) (h : scanAll scan ps = .ok l) (y : Param) :
    y ∈ l ↔ ∃ x ∈ ps, ∃ k, scan x = .ok k ∧ y ∈ k := by
  induction ps generalizing l with
  | nil => cases h; simp
  | cons p ps ih =>
    rw [scanAll] at h
    cases hp : scan p with
    | error e => rw [hp] at h; cases h
    | ok k =>
      rw [hp] at h
      simp only at h
      cases hs : scanAll scan ps with
      | error e => rw [hs] at h; cases h
      | ok ls =>
        rw [hs] at h; cases h
        rw [List.mem_append, ih ls hs]
        constructor
        · rintro (h | ⟨x, hx, k', h1, h2⟩)
          · exact ⟨p, List.mem_cons_self, k, hp, h⟩
          · exact ⟨x, List.mem_cons_of_mem _ hx, k', h1, h2⟩
        · rintro ⟨x, hx, k', h1, h2⟩
          rcases List.mem_cons.1 hx with rfl | hx
          · rw [hp] at h1; cases h1; exact .inl h2
          · exact .inr ⟨x, hx, k', h1, h2⟩

theorem contextFiles_mem (files : List Path) (p : Path) :
    p ∈ contextFiles ld files ↔ ∃ f ∈ files, p = div (parent (parent f)) (parse "context.txt".toList) ∧ ld.isFile p = true := by
  unfold contextFiles
  generalize parse "context.txt".toList = q0
  suffices ∀ acc, p ∈ files.foldl (fun found f =>
      let p := div (parent (parent f)) q0
      if ld.isFile p ∧ p ∉ found then found ++ [p] else found) acc ↔
      p ∈ acc ∨ ∃ f ∈ files, p = div (parent (parent f)) q0 ∧ ld.isFile p = true by
    rw [this]; simp
  induction files with
  | nil => simp
  | cons f files ih =>
    intro acc
    rw [List.foldl_cons, ih]
    simp only
    generalize hq : div (parent (parent f)) q0 = q
    by_cases h : ld.isFile q = true ∧ q ∉ acc
    · rw [if_pos h, List.mem_append, List.mem_singleton]
      constructor
      · rintro ((h' | rfl) | ⟨g, h1, h2⟩)
        · exact .inl h'
        · exact .inr ⟨f, List.mem_cons_self, hq.symm, h.1⟩
        · exact .inr ⟨g, List.mem_cons_of_mem _ h1, h2⟩
      · rintro (h' | ⟨g, h1, h2⟩)
        · exact .inl (.inl h')
        · rcases List.mem_cons.1 h1 with rfl | h1
          · exact .inl (.inr (h2.1.trans hq))
          · exact .inr ⟨g, h1, h2⟩
    · rw [if_neg h]
      constructor
      · rintro (h' | ⟨g, h1, h2⟩)
        · exact .inl h'
        · exact .inr ⟨g, List.mem_cons_of_mem _ h1, h2⟩
      · rintro (h' | ⟨g, h1, h2⟩)
        · exact .inl h'
        · rcases List.mem_cons.1 h1 with rfl | h1
          · have : p = q := h2.1.trans hq
            subst this
            left
            exact Classical.byContradiction fun hn => h ⟨h2.2, hn⟩
          · exact .inr ⟨g, h1, h2⟩

theorem context_path (f : Path) : div (parent (parent f)) (parse "context.txt".toList) =
    ⟨f.abs, f.parts.dropLast.dropLast ++ ["context.txt".toList]⟩ := by
  have : parse "context.txt".toList = ⟨false, ["context.txt".toList]⟩ := by decide
  rw [this]; rfl

theorem mem_hashes (ctx : Dict Str Value) (h : Str) : h ∈ hashes ctx ↔ ∃ k content, (k, Value.tag (some h) content) ∈ ctx := by
  unfold hashes
  rw [(Starters.sortWith_perm _ _).mem_iff, List.mem_filterMap]
  constructor
  · rintro ⟨⟨k, v⟩, hm, he⟩
    cases v with
    | text s => simp at he
    | other => simp at he
    | tag o s => simp only at he; subst he; exact ⟨k, s, hm⟩
  · rintro ⟨k, s, hm⟩
    exact ⟨_, hm, rfl⟩

theorem parameters_inv (e : Env) (r : Renderer) (ps : List Param) (ctx : Dict Str Value) (hctx : r.context = some ctx)
    (h : parameters e r = .ok ps) : ∃ t files found, template e.loader ctx r.ext = .ok t ∧
      templateFiles e.loader e.depth t = .ok files ∧
      scanAll e.scan (r.given ++ files.map (fun p => .path (toStr p)) ++ (contextFiles e.loader files).map fun p => .path (toStr p)) = .ok found ∧
      ps = Lists.uniq id (r.given ++ files.map (fun p => .path (toStr p)) ++ (contextFiles e.loader files).map (fun p => .path (toStr p))
        ++ found ++ (hashes ctx).map .text) := by
  unfold parameters at h
  rw [hctx] at h
  simp only at h
  cases ht : template e.loader ctx r.ext with
  | error err => rw [ht] at h; cases h
  | ok t =>
    rw [ht] at h
    simp only at h
    cases hf : templateFiles e.loader e.depth t with
    | error err => rw [hf] at h; cases h
    | ok files =>
      rw [hf] at h
      simp only at h
      cases hs : scanAll e.scan (r.given ++ files.map (fun p => .path (toStr p)) ++ (contextFiles e.loader files).map fun p => .path (toStr p)) with
      | error err => rw [hs] at h; cases h
      | ok found =>
        rw [hs] at h; cases h
        exact ⟨t, files, found, rfl, hf, hs, rfl⟩

theorem basic_iff (given : List Param) (t : Tpl) (files : List Path) (hf : templateFiles ld d t = .ok files) (x : Param) :
    x ∈ given ++ files.map (fun p => .path (toStr p)) ++ (contextFiles ld files).map (fun p => .path (toStr p)) ↔ Basic ld given t x := by
  rw [List.mem_append, List.mem_append, List.mem_map, List.mem_map]
  constructor
  · rintro ((h | ⟨p, hp, rfl⟩) | ⟨p, hp, rfl⟩)
    · exact .given x h
    · obtain ⟨u, hu, rfl⟩ := (files_mem d t files hf p).1 hp
      exact .template u hu
    · obtain ⟨f, h1, h2, h3⟩ := (contextFiles_mem files p).1 hp
      obtain ⟨u, hu, rfl⟩ := (files_mem d t files hf f).1 h1
      exact .context u p hu (by rw [h2, context_path]) h3
  · intro h
    cases h with
    | given _ h => exact .inl (.inl h)
    | template u hu => exact .inl (.inr ⟨_, (files_mem d t files hf _).2 ⟨u, hu, rfl⟩, rfl⟩)
    | context u p hu h1 h2 =>
      exact .inr ⟨p, (contextFiles_mem files p).2 ⟨u.file, (files_mem d t files hf _).2 ⟨u, hu, rfl⟩, by rw [h1, context_path], h2⟩, rfl⟩

theorem parameters_watched (e : Env) (r : Renderer) (ps : List Param) (ctx : Dict Str Value) (hctx : r.context = some ctx)
    (h : parameters e r = .ok ps) : ∃ t, template e.loader ctx r.ext = .ok t ∧ ps.Nodup ∧
      ∀ x, x ∈ ps ↔ Watched e r.given ctx t x := by
  obtain ⟨t, files, found, h1, h2, h3, rfl⟩ := parameters_inv e r ps ctx hctx h
  refine ⟨t, h1, Lists.uniq_nodup _, fun x => ?_⟩
  rw [Lists.mem_uniq, List.mem_append, List.mem_append, basic_iff _ _ _ h2, scanAll_ok _ _ _ h3, List.mem_map]
  constructor
  · rintro ((h | ⟨y, hy, k, k1, k2⟩) | ⟨y, hy, rfl⟩)
    · exact .basic x h
    · exact .scanned y x k ((basic_iff _ _ _ h2 _).1 hy) k1 k2
    · obtain ⟨k, s, hk⟩ := (mem_hashes ctx y).1 hy
      exact .hash k y s hk
  · intro h
    cases h with
    | basic _ h => exact .inl (.inl h)
    | scanned y _ l hy h1 h2' => exact .inl (.inr ⟨y, (basic_iff _ _ _ h2 _).2 hy, l, h1, h2'⟩)
    | hash k h s hk => exact .inr ⟨h, (mem_hashes ctx h).2 ⟨k, s, hk⟩, rfl⟩

/-! ### The status -/

theorem input_eq : Param.item enc = input enc := by
  funext x
  cases x <;> rfl

theorem missing_iff (fs : FS) (ps : List Param) :
    ((ps.map (Param.item enc)).any (missing fs)) = true ↔ ∃ p, Param.path p ∈ ps ∧ fs p = none := by
  rw [List.any_eq_true]
  constructor
  · rintro ⟨it, hit, hm⟩
    obtain ⟨x, hx, rfl⟩ := List.mem_map.1 hit
    cases x with
    | path p => exact ⟨p, hx, Option.isNone_iff_eq_none.1 hm⟩
    | text s => simp [Param.item, missing] at hm
    | other s => simp [Param.item, missing] at hm
  · rintro ⟨p, hp, hn⟩
    exact ⟨_, List.mem_map.2 ⟨_, hp, rfl⟩, by simp only [Param.item, missing, Option.isNone_iff_eq_none]; exact hn⟩

theorem status_cases (e : Env) (w : World) (r : Renderer) (ps : List Param) (h : parameters e r = .ok ps) :
    ((ps = [] ∨ ∃ p, Param.path p ∈ ps ∧ w.fs p = none) ∧ status c enc e w r = .ok .missingParameters) ∨
    (ps ≠ [] ∧ (∀ p, Param.path p ∈ ps → w.fs p ≠ none) ∧
      ((¬ CopyFile.needed c enc renderAction w ps r.target ∧ status c enc e w r = .ok .done) ∨
       (CopyFile.needed c enc renderAction w ps r.target ∧ status c enc e w r = .ok .ready))) := by
  obtain ⟨b, h1, h2⟩ := CopyFile.needed_eq (c := c) (enc := enc) renderAction w ps r.target
  unfold CopyFile.inputs at h1
  have hsee : Builder.see c w.fs w.db (ps.map (Param.item enc)) (enc renderAction) r.target =
      some ⟨(ps.map (Param.item enc)).isEmpty || (ps.map (Param.item enc)).any (missing w.fs), b, (w.fs r.target).isSome⟩ := by
    unfold Builder.see
    rw [h1]; rfl
  have hst : status c enc e w r = (if ((ps.map (Param.item enc)).isEmpty || (ps.map (Param.item enc)).any (missing w.fs)) = true then
      .ok .missingParameters else if b = false then .ok .done else .ok .ready) := by
    unfold status
    rw [h]
    simp only
    unfold Builder.Leaf.statusIn
    rw [hsee]
    generalize ((ps.map (Param.item enc)).isEmpty || (ps.map (Param.item enc)).any (missing w.fs)) = m
    cases m <;> cases b <;> rfl
  rw [hst]
  by_cases hm : ((ps.map (Param.item enc)).isEmpty || (ps.map (Param.item enc)).any (missing w.fs)) = true
  · left
    rw [if_pos hm]
    refine ⟨?_, rfl⟩
    rw [Bool.or_eq_true] at hm
    rcases hm with hm | hm
    · left; cases ps with
      | nil => rfl
      | cons => cases hm
    · exact .inr ((missing_iff _ _).1 hm)
  · right
    rw [if_neg hm]
    rw [Bool.or_eq_true, not_or] at hm
    refine ⟨?_, ?_, ?_⟩
    · rintro rfl; exact hm.1 rfl
    · intro p hp hn
      exact hm.2 ((missing_iff _ _).2 ⟨p, hp, hn⟩)
    · cases b with
      | false => exact .inl ⟨fun hn => (by cases h2.2 hn), rfl⟩
      | true => exact .inr ⟨h2.1 rfl, rfl⟩

theorem status_error (e : Env) (w : World) (r : Renderer) (err : Err) (h : parameters e r = .error err) :
    status c enc e w r = .error err := by
  unfold status; rw [h]

/-- A build of a renderer whose watched files are there. -/
theorem build_eq (e : Env) (w : World) (r : Renderer) (ctx : Dict Str Value) (t : Tpl) (ps : List Param) (hctx : r.context = some ctx)
    (ht : template e.loader ctx r.ext = .ok t) (hps : parameters e r = .ok ps) (h0 : ps ≠ [])
    (hall : ∀ p, Param.path p ∈ ps → w.fs p ≠ none) :
    ∃ i d, (build c enc e w r).1 = .ok .done ∧ (build c enc e w r).2.fs = write w.fs r.target (e.render t ctx) ∧
      c.hashItems (write w.fs r.target (e.render t ctx)) (CopyFile.inputs enc renderAction ps) = some i ∧
      c.hashItems (write w.fs r.target (e.render t ctx)) [.path r.target] = some d ∧ (build c enc e w r).2.db = w.db.set i d := by
  have hb : build c enc e w r = (status c enc e (record c enc renderAction ⟨write w.fs r.target (e.render t ctx), w.db⟩ ps r.target) r,
      record c enc renderAction ⟨write w.fs r.target (e.render t ctx), w.db⟩ ps r.target) := by
    simp only [build, hctx, ht, hps]
  rw [hb]
  obtain ⟨r1, r2⟩ := CopyFile.record_eq (c := c) (enc := enc) renderAction ⟨write w.fs r.target (e.render t ctx), w.db⟩ ps r.target
  have hthere := CopyFile.allThere_write (enc := enc) w ps r.target (e.render t ctx) renderAction hall
  rcases r2 with ⟨h, _⟩ | ⟨_, i, d, k1, k2, k3, k4⟩
  · exact absurd hthere h
  · refine ⟨i, d, ?_, r1, k1, k2, k3⟩
    rcases status_cases (c := c) (enc := enc) e (record c enc renderAction ⟨write w.fs r.target (e.render t ctx), w.db⟩ ps r.target)
      r ps hps with ⟨h, _⟩ | ⟨_, _, ⟨_, h⟩ | ⟨h, _⟩⟩
    · rcases h with h | ⟨p, hp, hn⟩
      · exact absurd h h0
      · rw [r1] at hn
        simp only [write] at hn
        by_cases hq : p = r.target
        · rw [if_pos hq] at hn; cases hn
        · rw [if_neg hq] at hn; exact absurd hn (hall p hp)
    · exact h
    · exact absurd h k4

theorem update_cases (e : Env) (w : World) (r : Renderer) :
    (status c enc e w r ≠ .ok .ready ∧ update c enc e w r = (status c enc e w r, w)) ∨
    (status c enc e w r = .ok .ready ∧ update c enc e w r = build c enc e w r) := by
  unfold update
  by_cases h : status c enc e w r = .ok .ready
  · right; rw [h]; exact ⟨rfl, rfl⟩
  · left
    refine ⟨h, ?_⟩
    cases hs : status c enc e w r with
    | error err => rfl
    | ok st => cases st <;> first | rfl | exact absurd hs h

theorem ready_inv (e : Env) (w : World) (r : Renderer) (ctx : Dict Str Value) (hctx : r.context = some ctx)
    (h : status c enc e w r = .ok .ready) : ∃ t ps, template e.loader ctx r.ext = .ok t ∧ parameters e r = .ok ps ∧ ps ≠ [] ∧
      ∀ p, Param.path p ∈ ps → w.fs p ≠ none := by
  cases hps : parameters e r with
  | error err => rw [status_error e w r err hps] at h; cases h
  | ok ps =>
    obtain ⟨t, ht, _⟩ := parameters_watched e r ps ctx hctx hps
    rcases status_cases (c := c) (enc := enc) e w r ps hps with ⟨_, h'⟩ | ⟨h1, h2, _⟩
    · rw [h] at h'; cases h'
    · exact ⟨t, ps, ht, rfl, h1, h2⟩

theorem inputs_of (e : Env) (r : Renderer) (ctx : Dict Str Value) (ps : List Param) (hctx : r.context = some ctx)
    (hps : parameters e r = .ok ps) : Inputs enc e r (CopyFile.inputs enc renderAction ps) := by
  obtain ⟨t, ht, hn, hm⟩ := parameters_watched e r ps ctx hctx hps
  refine ⟨ctx, t, ps, hctx, ht, hn, hm, ?_⟩
  unfold CopyFile.inputs
  rw [input_eq]; rfl

/-! ### Histories -/

/-- One step that records. -/
inductive Rec (c : Cfg) (enc : Str → Bytes) (w : World) : Op → List Item → Item → Prop
  | update (e : Env) (r : Renderer) (b : Bytes) (is : List Item) : Inputs enc e r is → Rendered e r b →
      (step c enc w (.update e r)).fs = write w.fs r.target b → Rec c enc w (.update e r) is (.path r.target)
  | other (is : List Item) (o : Item) : Rec c enc w (.other is o true) is o

theorem Rec.decides (h : Rec c enc w op is o) : Decides enc op is o := by
  cases h with
  | update _ _ _ _ h => exact .update _ _ _ h
  | other => exact .other _ _

theorem step_rec (w : World) (op : Op) (i d : Bytes) (h : (step c enc w op).db.get? i = some d) :
    w.db.get? i = some d ∨ ∃ is o, Rec c enc w op is o ∧ c.hashItems (step c enc w op).fs is = some i ∧
      c.hashItems (step c enc w op).fs [o] = some d := by
  cases op with
  | files fs => exact .inl h
  | update e r =>
    rcases update_cases (c := c) (enc := enc) e w r with ⟨_, h1⟩ | ⟨hr, h1⟩
    · left; simp only [step, h1] at h; exact h
    · cases hctx : r.context with
      | none =>
        left
        simp only [step, h1, build, hctx] at h
        exact h
      | some ctx =>
        obtain ⟨t, ps, ht, hps, h0, hall⟩ := ready_inv e w r ctx hctx hr
        obtain ⟨i', d', _, k2, k3, k4, k5⟩ := build_eq (c := c) (enc := enc) e w r ctx t ps hctx ht hps h0 hall
        simp only [step, h1] at h
        rw [k5, Dict.get?_set] at h
        by_cases hi : i' = i
        · rw [if_pos hi] at h
          right
          cases h
          subst hi
          have e' : (step c enc w (.update e r)).fs = write w.fs r.target (e.render t ctx) := by simp only [step, h1]; exact k2
          exact ⟨_, _, .update e r _ _ (inputs_of e r ctx ps hctx hps) ⟨ctx, t, hctx, ht, rfl⟩ e', by rw [e']; exact k3,
            by rw [e']; exact k4⟩
        · rw [if_neg hi] at h; exact .inl h
  | other is o reset =>
    rcases CopyFile.step_rec (c := c) (enc := enc) w (.other is o reset) i d h with h' | ⟨is', o', h1, h2, h3⟩
    · exact .inl h'
    · cases h1
      exact .inr ⟨_, _, .other _ _, h2, h3⟩

theorem run_snoc (w : World) (ops : List Op) (op : Op) : run c enc w (ops ++ [op]) = step c enc (run c enc w ops) op := by
  simp [run]

theorem run_rec (fs0 : FS) (ops : List Op) (i d : Bytes) (h : (run c enc ⟨fs0, []⟩ ops).db.get? i = some d) :
    ∃ pre op post is o, ops = pre ++ op :: post ∧ Rec c enc (run c enc ⟨fs0, []⟩ pre) op is o ∧
      c.hashItems (run c enc ⟨fs0, []⟩ (pre ++ [op])).fs is = some i ∧
      c.hashItems (run c enc ⟨fs0, []⟩ (pre ++ [op])).fs [o] = some d := by
  generalize hn : ops.length = n
  induction n generalizing ops with
  | zero =>
    rw [List.length_eq_zero_iff.1 hn] at h
    cases h
  | succ n ih =>
    have h0 : ops ≠ [] := by rintro rfl; cases hn
    obtain ⟨op, hop⟩ : ∃ op, ops = ops.dropLast ++ [op] := ⟨_, (List.dropLast_concat_getLast h0).symm⟩
    rw [hop, run_snoc] at h
    rcases step_rec _ _ _ _ h with h | ⟨is, o, h1, h2, h3⟩
    · obtain ⟨pre, e, post, is, o, k1, k⟩ := ih ops.dropLast h (by rw [List.length_dropLast, hn]; rfl)
      refine ⟨pre, e, post ++ [op], is, o, ?_, k⟩
      rw [hop, k1]; simp
    · exact ⟨ops.dropLast, op, [], is, o, hop, h1, by rw [run_snoc]; exact h2, by rw [run_snoc]; exact h3⟩

end Verif.Jinja
