import Verif.Lemmas.Template

/-!
# C60: The header of a document wins over its template, the template over those it extends
-/

namespace Verif.Template

open Verif Verif.Context Verif.Context.Spec Verif.Header Verif.Header.Spec Verif.Paths

/-- C60. When the headers of a context are processed, the header blocks are cut from its texts, the directories of its template and of the
templates this one extends are put before its paths, and the entries of their context files are written to the context, and then the
entries of the headers over these. Among the context files the first that has an entry counts, and the template's own comes first.
`order` is the order in which the entries with headers are visited, which the code leaves open. -/
theorem C60_loaded (P : Py) (hP : ∀ s, ((P.strToDict s).map Prod.fst).Nodup) (sp : Char → Bool) (hsp : Spaces sp)
    (hq : sp '"' = false ∧ sp '\'' = false) (disk : Disk) (base : Path) (replace : List Str) (pathVal : Path → Atom)
    (order : List Str → List Str) (horder : ∀ l, (order l).Perm l) (h : Heap) (ctx : Nat) (F : List (Str × Tree)) (fp : List Nat)
    (hr : Reads h (.dict F) (.ref ctx) fp) (hn : fp.Nodup) (h' : Heap)
    (hok : processHeaders P sp disk [base] replace pathVal order h ctx = .ok h') :
    ∃ cut F' H T name paths, Cuts sp cut ∧ (∀ s, HasBlock sp s → loadFromString sp s = (some (cut s).2, (cut s).1)) ∧
      (∃ fp', Reads h' (.dict F') (.ref ctx) fp' ∧ fp'.Nodup) ∧ (∃ ts, lookup F "paths".toList = some (.list ts)) ∧
      Loaded P sp cut disk base replace pathVal F F' H T name paths := by
  unfold processHeaders at hok
  obtain ⟨F0, r1, r2, r3, r4, r5⟩ := loadHeaders_all P hP sp hsp ctx order horder h F fp hr hn
  have hk0 := loadHeaders_getKey P sp ctx (order (headerKeys sp (Context.entries h ctx))) h [] "paths".toList
  generalize hL : loadHeaders P sp ctx h [] (order (headerKeys sp (Context.entries h ctx))) = L at hok r1 r2 r4 r5 hk0
  split at hok
  · rename_i p hp
    have hk : getKey L.1 ctx "paths".toList = some (.ref p) := by
      rw [hk0, hp]
      intro hm
      obtain ⟨s, hs, -⟩ := ((headerKeys_spec sp hsp h ctx F fp hr).2 _).1 ((horder _).mem_iff.1 hm)
      rw [(getKey_text h ctx F fp hr _ s).2 hs] at hp
      cases hp
    split at hok
    · rename_i l0 hl0
      simp only at hok
      split at hok
      · cases hok
      · rename_i name hname
        split at hok
        · rename_i l hl
          split at hok
          · cases hok
          · rename_i h2 hup
            have hlist := List.map_map (f := fun q => pathVal q) (g := Value.atom) (l := templatePaths sp disk [base] (parse name))
            obtain ⟨ts, e1, e2⟩ := reads_prepend L.1 ctx F0 fp r1 hn "paths".toList p l hk hl ((templatePaths sp disk [base] (parse name)).map pathVal)
            rw [hlist] at e2
            have hrev : (contextFiles disk (templatePaths sp disk [base] (parse name)).reverse) =
                (contextFiles disk (templatePaths sp disk [base] (parse name)).reverse).reverse.reverse := (List.reverse_reverse _).symm
            obtain ⟨F1, fp1, g1, g2, g3⟩ := updateWith_spec P hP replace _ ctx _ fp e2 hn _
              (by rw [hrev]; exact templateEntries_nodup P sp disk _) h2 hup
            obtain ⟨F2, fp2, g4, g5, g6⟩ := updateWith_spec P hP replace _ ctx _ fp1 g1 g2 _ r4 h' hok
            refine ⟨cutOf sp, F2, L.2, templateEntries P sp disk (contextFiles disk (templatePaths sp disk [base] (parse name)).reverse), name, _, cuts_cutOf sp hsp, fun s hs => load_block sp hsp s hs, ⟨fp2, g4, g5⟩, ?_, r5,
              templatePaths_searched sp hq disk base (parse name), ?_, F0, r3, (templateName_named L.1 ctx F0 fp r1 L.2 name).1 hname, ?_⟩
            · have := r3 "paths".toList
              rw [e1] at this
              generalize lookup F "paths".toList = o at this
              cases this with
              | other => exact ⟨ts, rfl⟩
            · refine ⟨_, (contextFiles disk (templatePaths sp disk [base] (parse name)).reverse).reverse, filesOf_filterMap disk _, ?_, ?_⟩
              · unfold contextFiles
                rw [List.filterMap_reverse]
                exact lastOnly_uniq _
              · have := templateEntries_first P hP sp disk (contextFiles disk (templatePaths sp disk [base] (parse name)).reverse).reverse ?_
                · rw [List.reverse_reverse] at this
                  exact this
                · intro f hf
                  unfold contextFiles at hf
                  rw [List.mem_reverse, Lists.mem_uniq, List.mem_filterMap] at hf
                  obtain ⟨q, _, hq⟩ := hf
                  exact fileOf_text disk q f ((contextFile_iff disk q f).1 hq)
            · intro k
              refine ⟨lookup F1 k, ?_, g6 k⟩
              have := g3 k
              rw [get?_tree_set] at this
              unfold withPaths
              by_cases hkp : k = "paths".toList
              · rw [if_pos hkp] at this ⊢
                rw [hkp, e1]
                rw [hkp] at this
                simpa [Function.comp_def] using this
              · rw [if_neg hkp] at this ⊢
                exact this
        · cases hok
    · cases hok
  · cases hok

variable {P : Py} {sp : Char → Bool} {cut : Str → Str × Str} {disk : Disk} {base : Path} {replace : List Str} {pathVal : Path → Atom}
  {F F' : List (Str × Tree)} {H T : List (Str × Str)} {name : Str} {paths : List Path}

/-- The entry that counts: that of the headers, or else that of the templates. -/
def over (a b : Option Str) : Option Str := match a with | some v => some v | none => b

/-- C60. An entry the context does not have is that of the headers, or else that of the templates. -/
theorem C60_new_entry (h : Loaded P sp cut disk base replace pathVal F F' H T name paths) (k : Str) (hk : lookup F k = none) :
    lookup F' k = asText (over (valueOf H k) (valueOf T k)) := by
  obtain ⟨F0, h1, -, h2⟩ := h.entries
  obtain ⟨m, e1, e2⟩ := h2 k
  have h0 : withPaths pathVal paths k (lookup F0 k) = none := by
    have := h1 k
    rw [hk] at this
    generalize lookup F0 k = o at this
    cases this
    unfold withPaths
    split <;> rfl
  rw [h0] at e1
  cases hT : valueOf T k with
  | none =>
    rw [hT] at e1
    cases e1
    cases hH : valueOf H k with
    | none => rw [hH] at e2; generalize lookup F' k = o at e2; cases e2; rfl
    | some v => rw [hH] at e2; generalize lookup F' k = o at e2; cases e2; rfl
  | some w =>
    rw [hT] at e1
    cases e1
    cases hH : valueOf H k with
    | none => rw [hH] at e2; generalize lookup F' k = o at e2; cases e2; rfl
    | some v =>
      rw [hH] at e2
      generalize lookup F' k = o at e2
      cases e2 with
      | kept _ _ hf => cases hf
      | changed _ _ r _ hc =>
        have : (if decide (k ∈ replace) = true then emptied (Tree.atom (.str w)) else Tree.atom (.str w)) = Tree.atom (.str w) := by
          split <;> rfl
        rw [this] at hc
        cases hc with
        | atom _ a' _ hc' =>
          cases hc' with
          | text => rfl
          | textKept _ _ hne => exact absurd rfl (hne v)

/-- C60. An entry of the context that is a text is replaced by that of the headers, or else by that of the templates; or else only its
header block is cut. -/
theorem C60_text_entry (h : Loaded P sp cut disk base replace pathVal F F' H T name paths) (k s : Str)
    (hk : lookup F k = some (.atom (.str s))) :
    (∀ v, over (valueOf H k) (valueOf T k) = some v → lookup F' k = some (.atom (.str v))) ∧
    (over (valueOf H k) (valueOf T k) = none → Stripped sp cut (some (.atom (.str s))) (lookup F' k)) := by
  obtain ⟨F0, h1, -, h2⟩ := h.entries
  obtain ⟨m, e1, e2⟩ := h2 k
  have hstr := h1 k
  rw [hk] at hstr
  have h0 : ∃ s0, lookup F0 k = some (.atom (.str s0)) ∧ withPaths pathVal paths k (lookup F0 k) = some (.atom (.str s0)) := by
    generalize lookup F0 k = o at hstr
    cases hstr with
    | block => exact ⟨_, rfl, by unfold withPaths; split <;> rfl⟩
    | text => exact ⟨_, rfl, by unfold withPaths; split <;> rfl⟩
    | other _ hne => exact absurd rfl (hne s)
  obtain ⟨s0, h00, h0⟩ := h0
  have step : ∀ (a v : Str) (r : Option Tree), Entry P (Updated P 4 [] true) (decide (k ∈ replace)) true (some (.atom (.str a)))
      (asText (some v)) r → r = some (.atom (.str v)) := by
    intro a v r e
    cases e with
    | kept _ _ hf => cases hf
    | changed _ _ r _ hc =>
      have : (if decide (k ∈ replace) = true then emptied (Tree.atom (.str a)) else Tree.atom (.str a)) = Tree.atom (.str a) := by
        split <;> rfl
      rw [this] at hc
      cases hc with
      | atom _ a' _ hc' =>
        cases hc' with
        | text => rfl
        | textKept _ _ hne => exact absurd rfl (hne v)
  rw [h0] at e1
  cases hT : valueOf T k with
  | none =>
    rw [hT] at e1
    cases e1
    cases hH : valueOf H k with
    | none =>
      rw [hH] at e2
      refine ⟨by simp [over], fun _ => ?_⟩
      have : lookup F' k = some (.atom (.str s0)) := by generalize lookup F' k = o at e2; cases e2; rfl
      rw [this, ← h00]; exact hstr
    | some v =>
      rw [hH] at e2
      refine ⟨fun v' hv' => ?_, by simp [over]⟩
      simp only [over, Option.some.injEq] at hv'
      rw [step _ _ _ e2, hv']
  | some w =>
    rw [hT] at e1
    have hm := step _ _ _ e1
    subst hm
    cases hH : valueOf H k with
    | none =>
      rw [hH] at e2
      refine ⟨fun v' hv' => ?_, by simp [over]⟩
      simp only [over, Option.some.injEq] at hv'
      generalize lookup F' k = o at e2
      cases e2
      rw [hv']
    | some v =>
      rw [hH] at e2
      refine ⟨fun v' hv' => ?_, by simp [over]⟩
      simp only [over, Option.some.injEq] at hv'
      rw [step _ _ _ e2, hv']

/-- The items of an entry of a list, none if there is no entry. -/
def itemsOf (P : Py) (o : Option Str) : List Tree := match o with | some s => (P.strToList s).map fun x => .atom (.str x) | none => []

/-- C60. An entry of the context that is a list has the items of the headers first, then those of the templates, and then its own. Where
entries are replaced, it has those of the headers only, or else those of the templates only, or else its own. The directories of the
templates are part of `paths`, the template's own first. -/
theorem C60_list_entry (h : Loaded P sp cut disk base replace pathVal F F' H T name paths) (k : Str) (ts own : List Tree)
    (hk : lookup F k = some (.list ts))
    (hown : own = if k = "paths".toList then paths.map (fun q => Tree.atom (pathVal q)) ++ ts else ts) :
    (k ∉ replace → lookup F' k = some (.list (itemsOf P (valueOf H k) ++ itemsOf P (valueOf T k) ++ own))) ∧
    (k ∈ replace → ∀ v, over (valueOf H k) (valueOf T k) = some v → lookup F' k = some (.list (itemsOf P (some v)))) ∧
    (over (valueOf H k) (valueOf T k) = none → lookup F' k = some (.list own)) := by
  obtain ⟨F0, h1, -, h2⟩ := h.entries
  obtain ⟨m, e1, e2⟩ := h2 k
  have hstr := h1 k
  rw [hk] at hstr
  have h0 : withPaths pathVal paths k (lookup F0 k) = some (.list own) := by
    generalize lookup F0 k = o at hstr
    cases hstr with
    | other _ hne =>
      rw [hown]
      unfold withPaths
      split <;> rfl
  have step : ∀ (l : List Tree) (v : Str) (r : Option Tree), Entry P (Updated P 4 [] true) (decide (k ∈ replace)) true (some (.list l))
      (asText (some v)) r → r = some (.list (itemsOf P (some v) ++ if k ∈ replace then [] else l)) := by
    intro l v r e
    cases e with
    | kept _ _ hf => cases hf
    | changed _ _ r _ hc =>
      have : (if decide (k ∈ replace) = true then emptied (Tree.list l) else Tree.list l) = Tree.list (if k ∈ replace then [] else l) := by
        by_cases hr : k ∈ replace <;> simp [hr, emptied]
      rw [this] at hc
      cases hc with
      | list _ items _ hi => cases hi; rfl
  rw [h0] at e1
  cases hT : valueOf T k with
  | none =>
    rw [hT] at e1
    cases e1
    cases hH : valueOf H k with
    | none =>
      rw [hH] at e2
      have : lookup F' k = some (.list own) := by generalize lookup F' k = o at e2; cases e2; rfl
      exact ⟨fun _ => by simpa [itemsOf] using this, fun _ v hv => by simp [over] at hv, fun _ => this⟩
    | some v =>
      rw [hH] at e2
      have := step _ _ _ e2
      refine ⟨fun hr => ?_, fun hr v' hv' => ?_, by simp [over]⟩
      · rw [this, if_neg hr]; simp [itemsOf]
      · simp only [over, Option.some.injEq] at hv'
        rw [this, if_pos hr, hv', List.append_nil]
  | some w =>
    rw [hT] at e1
    have hm := step _ _ _ e1
    subst hm
    cases hH : valueOf H k with
    | none =>
      rw [hH] at e2
      have : lookup F' k = some (.list (itemsOf P (some w) ++ if k ∈ replace then [] else own)) := by
        generalize lookup F' k = o at e2; cases e2; rfl
      refine ⟨fun hr => ?_, fun hr v' hv' => ?_, by simp [over]⟩
      · rw [this, if_neg hr]; simp [itemsOf]
      · simp only [over, Option.some.injEq] at hv'
        rw [this, if_pos hr, hv', List.append_nil]
    | some v =>
      rw [hH] at e2
      have := step _ _ _ e2
      refine ⟨fun hr => ?_, fun hr v' hv' => ?_, by simp [over]⟩
      · rw [this, if_neg hr, if_neg hr, List.append_assoc]
      · simp only [over, Option.some.injEq] at hv'
        rw [this, if_pos hr, hv', List.append_nil]

/-- C60. Whatever an entry is, it stays as it is if neither the headers nor the templates have one for its key: only header blocks are cut,
and the directories of the templates are put into `paths`. -/
theorem C60_other_entries (h : Loaded P sp cut disk base replace pathVal F F' H T name paths) (k : Str) (hp : k ≠ "paths".toList)
    (hH : valueOf H k = none) (hT : valueOf T k = none) : Stripped sp cut (lookup F k) (lookup F' k) := by
  obtain ⟨F0, h1, -, h2⟩ := h.entries
  obtain ⟨m, e1, e2⟩ := h2 k
  have hstr := h1 k
  rw [hT] at e1
  rw [hH] at e2
  unfold withPaths at e1
  rw [if_neg hp] at e1
  generalize lookup F0 k = o at e1 hstr
  cases e1
  generalize lookup F' k = o' at e2
  cases e2
  exact hstr

/-- C60. An entry in the context file of the template counts before those of the templates it extends, if these have other context files. -/
theorem C60_child_first_partial (h : Loaded P sp cut disk base replace pathVal F F' H T name paths) (p f : Path) (hp : DirOf disk base (parse name) p)
    (hf : FileOf disk p f) (hother : ∀ q ∈ paths, q ≠ p → ¬ FileOf disk q f) (k v : Str) (hv : InFile P sp cut disk f k v) :
    valueOf T k = some v := by
  obtain ⟨R, seen, h1, h2, h3⟩ := h.files
  obtain ⟨hnd, -, hhead⟩ := h.searched
  have hh := hhead p hp
  cases paths with
  | nil => simp at hh
  | cons p' ps =>
    simp only [List.head?_cons, Option.some.injEq] at hh
    subst hh
    rw [List.nodup_cons] at hnd
    cases h1 with
    | none _ _ _ hno _ => exact absurd hf (hno f)
    | file _ f' _ fs hf' hfs =>
      have : f' = f := by
        have a := (contextFile_iff disk p' f').2 hf'
        rw [(contextFile_iff disk p' f).2 hf] at a
        exact (Option.some.inj a).symm
      subst this
      have hnin : f' ∉ fs := by
        have aux : ∀ (qs gs : List Path), FilesOf disk qs gs → f' ∈ gs → ∃ q ∈ qs, FileOf disk q f' := by
          intro qs gs hq
          induction hq with
          | nil => intro hm; simp at hm
          | file q g qs gs hg _ ih =>
            intro hm
            rcases List.mem_cons.1 hm with rfl | hm
            · exact ⟨q, by simp, hg⟩
            · obtain ⟨q', h1, h2⟩ := ih hm
              exact ⟨q', by simp [h1], h2⟩
          | none q qs gs _ _ ih =>
            intro hm
            obtain ⟨q', h1, h2⟩ := ih hm
            exact ⟨q', by simp [h1], h2⟩
        intro hm
        obtain ⟨q, hq, hqf⟩ := aux ps fs hfs hm
        exact hother q (by simp [hq]) (by rintro rfl; exact hnd.1 hq) hqf
      cases h2 with
      | again _ _ _ hin _ => exact absurd hin hnin
      | keep _ _ r _ _ => exact (h3 k v).2 ⟨[], f', r, rfl, hv, by simp⟩

/-- C60. The entries of the templates are in their context files, and no entry of a file is lost: there is one for its key. -/
theorem C60_template_entries (h : Loaded P sp cut disk base replace pathVal F F' H T name paths) :
    (∀ k v, valueOf T k = some v → ∃ p ∈ paths, ∃ f, FileOf disk p f ∧ InFile P sp cut disk f k v) ∧
    (∀ p ∈ paths, ∀ f, FileOf disk p f → ∀ k v, InFile P sp cut disk f k v → ∃ w, valueOf T k = some w) := by
  obtain ⟨R, seen, h1, h2, h3⟩ := h.files
  have hR : ∀ f, f ∈ R ↔ ∃ p ∈ paths, FileOf disk p f := by
    clear h3 h2 h
    intro f
    induction h1 with
    | nil => simp
    | file q g qs gs hg _ ih =>
      rw [List.mem_cons, ih]
      constructor
      · rintro (rfl | ⟨q', h1, h2⟩)
        · exact ⟨q, by simp, hg⟩
        · exact ⟨q', by simp [h1], h2⟩
      · rintro ⟨q', h1, h2⟩
        rcases List.mem_cons.1 h1 with rfl | h1
        · left
          have a := (contextFile_iff disk q' f).2 h2
          rw [(contextFile_iff disk q' g).2 hg] at a
          exact (Option.some.inj a).symm
        · exact .inr ⟨q', h1, h2⟩
    | none q qs gs hno _ ih =>
      rw [ih]
      constructor
      · rintro ⟨q', h1, h2⟩; exact ⟨q', by simp [h1], h2⟩
      · rintro ⟨q', h1, h2⟩
        rcases List.mem_cons.1 h1 with rfl | h1
        · exact absurd h2 (hno f)
        · exact ⟨q', h1, h2⟩
  have hseen : ∀ f, f ∈ seen ↔ f ∈ R := by
    clear h1 h3 hR
    intro f
    induction h2 with
    | nil => simp
    | again g l r hin _ ih =>
      rw [ih, List.mem_cons]
      exact ⟨.inr, fun h => by rcases h with rfl | h; exact hin; exact h⟩
    | keep g l r _ _ ih => rw [List.mem_cons, List.mem_cons, ih]
  constructor
  · intro k v hv
    obtain ⟨a, f, b, rfl, hf, -⟩ := (h3 k v).1 hv
    obtain ⟨p, hp, hpf⟩ := (hR f).1 ((hseen f).1 (by simp))
    exact ⟨p, hp, f, hpf, hf⟩
  · intro p hp f hf k v hv
    have hm := (hseen f).2 ((hR f).2 ⟨p, hp, hf⟩)
    have aux : ∀ l : List Path, f ∈ l → ∃ a g b w, l = a ++ g :: b ∧ InFile P sp cut disk g k w ∧ ∀ g' ∈ a, ∀ w, ¬ InFile P sp cut disk g' k w := by
      intro l
      induction l with
      | nil => intro h; simp at h
      | cons g l ih =>
        intro hm
        by_cases hg : ∃ w, InFile P sp cut disk g k w
        · obtain ⟨w, hw⟩ := hg
          exact ⟨[], g, l, w, rfl, hw, by simp⟩
        · rcases List.mem_cons.1 hm with rfl | hm
          · exact absurd ⟨v, hv⟩ hg
          · obtain ⟨a, g', b, w, rfl, e1, e2⟩ := ih hm
            refine ⟨g :: a, g', b, w, rfl, e1, fun g'' hg'' w' hw' => ?_⟩
            rcases List.mem_cons.1 hg'' with rfl | hg''
            · exact hg ⟨w', hw'⟩
            · exact e2 g'' hg'' w' hw'
    obtain ⟨a, g, b, w, e, e1, e2⟩ := aux seen hm
    exact ⟨w, (h3 k w).2 ⟨a, g, b, e, e1, e2⟩⟩

/-- C60. A context without a list of paths is refused. -/
theorem C60_no_paths (P : Py) (sp : Char → Bool) (disk : Disk) (bases : List Path) (replace : List Str) (pathVal : Path → Atom)
    (order : List Str → List Str) (h : Heap) (ctx : Nat) (F : List (Str × Tree)) (fp : List Nat)
    (hr : Reads h (.dict F) (.ref ctx) fp) (hp : ∀ ts, lookup F "paths".toList ≠ some (.list ts)) :
    processHeaders P sp disk bases replace pathVal order h ctx = .error .assertion := by
  unfold processHeaders
  rcases getKey_lookup h ctx F fp hr "paths".toList with ⟨e1, e2⟩ | ⟨t, v, fk, e1, e2, e3⟩
  · rw [e2]
  · rw [e2]
    cases t with
    | atom a => obtain ⟨rfl, _⟩ := e3; rfl
    | list ts => exact absurd e1 (hp ts)
    | set ts => obtain ⟨o, rfl, e, _⟩ := e3; simp only [e]
    | dict ts => obtain ⟨o, l, f, rfl, e, _⟩ := e3; simp only [e]

/-- C60. A context that has no name of a template, and no header with one, is refused. -/
theorem C60_no_template (P : Py) (hP : ∀ s, ((P.strToDict s).map Prod.fst).Nodup) (sp : Char → Bool) (hsp : Spaces sp)
    (disk : Disk) (bases : List Path) (replace : List Str) (pathVal : Path → Atom)
    (order : List Str → List Str) (horder : ∀ l, (order l).Perm l) (h : Heap) (ctx : Nat) (F : List (Str × Tree)) (fp : List Nat)
    (hr : Reads h (.dict F) (.ref ctx) fp) (hn : fp.Nodup) (ts : List Tree) (hp : lookup F "paths".toList = some (.list ts))
    (ht : ∀ s, lookup F "template".toList ≠ some (.atom (.str s)))
    (hh : ∀ cut, Cuts sp cut → ∀ v, ¬ InHeader P sp cut F "template".toList v) :
    processHeaders P sp disk bases replace pathVal order h ctx = .error .typeError := by
  obtain ⟨F0, r1, r2, r3, r4, r5⟩ := loadHeaders_all P hP sp hsp ctx order horder h F fp hr hn
  have hname : templateName (loadHeaders P sp ctx h [] (order (headerKeys sp (Context.entries h ctx)))).1 ctx
      (loadHeaders P sp ctx h [] (order (headerKeys sp (Context.entries h ctx)))).2 = none := by
    cases e : templateName (loadHeaders P sp ctx h [] (order (headerKeys sp (Context.entries h ctx)))).1 ctx
      (loadHeaders P sp ctx h [] (order (headerKeys sp (Context.entries h ctx)))).2 with
    | none => rfl
    | some n =>
      cases (templateName_named _ ctx F0 fp r1 _ n).1 e with
      | header _ h2 => exact absurd (r5.1 _ _ h2) (hh _ (cuts_cutOf sp hsp) _)
      | context _ h2 =>
        have := r3 "template".toList
        rw [h2] at this
        generalize hg : lookup F "template".toList = o at this
        cases this with
        | block s => exact absurd hg (ht _)
        | text s => exact absurd hg (ht _)
        | other => exact absurd hg (ht _)
  unfold processHeaders
  rcases getKey_lookup h ctx F fp hr "paths".toList with ⟨e1, e2⟩ | ⟨t, v, fk, e1, e2, e3⟩
  · rw [e1] at hp; cases hp
  · rw [hp] at e1
    cases e1
    obtain ⟨o, l, f, rfl, e, _⟩ := e3
    rw [e2]
    simp only [e, hname]

/-! ### Examples -/

/-- Texts of the form `key:value`, for the examples. -/
def linePy : Py := { samplePy with strToDict := fun s => if ':' ∈ s then [(s.takeWhile (· ≠ ':'), (s.dropWhile (· ≠ ':')).drop 1)] else [] }

theorem linePy_nodup : ∀ s, ((linePy.strToDict s).map Prod.fst).Nodup := by
  intro s
  simp only [linePy]
  split <;> simp

/-- A path from a text. -/
def at' (s : String) : Path := parse s.toList

/-- Templates: `child` extends `parent`, which extends `grand`. -/
def sampleDisk : Disk where
  isDir p := p ∈ [at' "/t/child", at' "/t/parent", at' "/t/grand", at' "/t"]
  text p :=
    if p = at' "/t/child/html/template.html" then some "{% extends \"parent/html/template.html\" %}".toList
    else if p = at' "/t/parent/html/template.html" then some "{% extends \"grand/html/template.html\" %}".toList
    else if p = at' "/t/child/context.txt" then some "title:C".toList
    else if p = at' "/t/parent/context.txt" then some "title:P".toList
    else if p = at' "/t/grand/context.txt" then some "extra:G".toList
    else none
  templates p :=
    if p = at' "/t/child" then [at' "/t/child/html/template.html"]
    else if p = at' "/t/parent" then [at' "/t/parent/html/template.html"]
    else []

/-- A context with a document that has a header. -/
def sampleContext (template header : String) : Heap :=
  [.dict [("paths".toList, .ref 1), ("template".toList, .atom (.str template.toList)), ("targets".toList, .ref 2),
     ("document".toList, .atom (.str ("---\n" ++ header ++ "\n---\nBody").toList))],
   .list [.atom (.str "src".toList)], .list [.atom (.str "tex".toList)]]

def sampleEntries (template header : String) : List (Str × Tree) :=
  [("paths".toList, .list [.atom (.str "src".toList)]), ("template".toList, .atom (.str template.toList)),
   ("targets".toList, .list [.atom (.str "tex".toList)]), ("document".toList, .atom (.str ("---\n" ++ header ++ "\n---\nBody").toList))]

theorem sampleContext_reads (template header : String) :
    Reads (sampleContext template header) (.dict (sampleEntries template header)) (.ref 0) [0, 1, 2] :=
  ⟨0, _, [1, 2], rfl, rfl, rfl,
    by show ["paths".toList, "template".toList, "targets".toList, "document".toList].Nodup; decide, _, _, [1], [2], rfl, rfl, ⟨1, _, [], rfl, rfl, rfl, _, _, [], [], rfl, rfl, ⟨rfl, rfl⟩, rfl, rfl⟩,
    _, _, [], [2], rfl, rfl, ⟨rfl, rfl⟩, _, _, [2], [], rfl, rfl, ⟨2, _, [], rfl, rfl, rfl, _, _, [], [], rfl, rfl, ⟨rfl, rfl⟩, rfl, rfl⟩,
    _, _, [], [], rfl, rfl, ⟨rfl, rfl⟩, rfl, rfl⟩

def runOn (disk : Disk) (order : List Str → List Str) (h : Heap) : Option Heap :=
  (processHeaders linePy ascii disk [at' "/t"] ["targets".toList] (fun p => .str (toStr p)) order h 0).toOption

/-- The template's own context file counts before that of the one it extends; the directories of both come before the paths; the header is
cut from the document. -/
example : (runOn sampleDisk id (sampleContext "child" "author:me")).map (fun h =>
    (getKey h 0 "title".toList, getKey h 0 "author".toList, getKey h 0 "document".toList, h[1]?)) =
    some (some (.atom (.str "C".toList)), some (.atom (.str "me".toList)), some (.atom (.str "Body".toList)),
      some (.list [.atom (.str "/t/child".toList), .atom (.str "/t/parent".toList), .atom (.str "src".toList)])) := by rfl

/-- The header counts before the template; a replaced list has the items of the header only. -/
example : (runOn sampleDisk id (sampleContext "child" "title:H")).map (fun h => getKey h 0 "title".toList) =
    some (some (.atom (.str "H".toList))) := by rfl

example : (runOn sampleDisk id (sampleContext "child" "targets:html")).map (fun h => h[2]?) = some (some (.list [.atom (.str "html".toList)])) := by
  rfl

/-- The template of the header counts before that of the context. -/
example : (runOn sampleDisk id (sampleContext "child" "template:parent")).map (fun h => (getKey h 0 "title".toList, getKey h 0 "extra".toList)) =
    some (some (.atom (.str "P".toList)), some (.atom (.str "G".toList))) := by rfl

/-- The theorems apply to the sample. -/
example : ∃ cut F' H T name paths,
    Loaded linePy ascii cut sampleDisk (at' "/t") ["targets".toList] (fun p => .str (toStr p)) (sampleEntries "child" "author:me") F' H T name paths := by
  cases e : processHeaders linePy ascii sampleDisk [at' "/t"] ["targets".toList] (fun p => .str (toStr p)) id (sampleContext "child" "author:me") 0 with
  | error x =>
    have : (runOn sampleDisk id (sampleContext "child" "author:me")).isSome = true := by rfl
    rw [runOn, e] at this
    cases this
  | ok h' =>
    obtain ⟨cut, F', H, T, name, paths, _, _, _, _, hl⟩ := C60_loaded linePy linePy_nodup ascii ascii_spaces ⟨by decide, by decide⟩ sampleDisk
      (at' "/t") ["targets".toList] _ id (fun l => .refl l) _ 0 _ _ (sampleContext_reads "child" "author:me") (by decide) h' e
    exact ⟨cut, F', H, T, name, paths, hl⟩

example : processHeaders linePy ascii sampleDisk [at' "/t"] [] (fun p => .str (toStr p)) id [.dict [("paths".toList, .ref 1)], .list []] 0 =
    .error .typeError := by rfl

/-! ### Findings -/

/-- Finding: only the templates the template itself extends are searched. `child` extends `parent`, which extends `grand`, but the context
file of `grand` is not loaded, and its directory is not among the paths. -/
theorem C60_grandparent :
    ParentOf ascii sampleDisk (at' "/t") (at' "/t/child") (at' "/t/parent") ∧
    ParentOf ascii sampleDisk (at' "/t") (at' "/t/parent") (at' "/t/grand") ∧
    (∃ s, FileOf sampleDisk (at' "/t/grand") s) ∧
    at' "/t/grand" ∉ templatePaths ascii sampleDisk [at' "/t"] (at' "child") ∧
    (runOn sampleDisk id (sampleContext "child" "author:me")).map (fun h => getKey h 0 "extra".toList) = some none := by
  refine ⟨?_, ?_, ⟨_, .own _ rfl⟩, by decide, by rfl⟩
  · rw [← findParents_mem ascii ⟨by decide, by decide⟩]; decide
  · rw [← findParents_mem ascii ⟨by decide, by decide⟩]; decide

/-- Templates that share a context file: `a/child` and `a/base` have none of their own, so the one in `a` is theirs. -/
def sharedDisk : Disk where
  isDir p := p ∈ [at' "/t/a/child", at' "/t/a/base", at' "/t/b", at' "/t/a", at' "/t"]
  text p :=
    if p = at' "/t/a/child/html/template.html" then some "{% extends \"b/html/template.html\" %}".toList
    else if p = at' "/t/a/child/tex/template.tex" then some "{% extends \"a/base/tex/template.tex\" %}".toList
    else if p = at' "/t/a/context.txt" then some "title:A".toList
    else if p = at' "/t/b/context.txt" then some "title:B".toList
    else none
  templates p := if p = at' "/t/a/child" then [at' "/t/a/child/html/template.html", at' "/t/a/child/tex/template.tex"] else []

/-- Finding: if another template shares the context file of the template, that file counts only in the place of the other one. Here the
entry of `b`, which `a/child` extends, counts before the entry of the context file of `a/child`. -/
theorem C60_shared_file :
    ParentOf ascii sharedDisk (at' "/t") (at' "/t/a/child") (at' "/t/b") ∧
    FileOf sharedDisk (at' "/t/a/child") (at' "/t/a/context.txt") ∧ sharedDisk.text (at' "/t/a/context.txt") = some "title:A".toList ∧
    (runOn sharedDisk id (sampleContext "a/child" "author:me")).map (fun h => getKey h 0 "title".toList) =
      some (some (.atom (.str "B".toList))) := by
  refine ⟨?_, .beside _ (by decide) rfl, rfl, by rfl⟩
  rw [← findParents_mem ascii ⟨by decide, by decide⟩]; decide

/-- Finding: if two entries of a context have headers with the same key, which of them counts depends on the order of a set of texts, which
changes from run to run. -/
theorem C60_two_headers :
    let h : Heap := [.dict [("paths".toList, .ref 1), ("template".toList, .atom (.str "child".toList)),
      ("document".toList, .atom (.str "---\ntitle:one\n---\nBody".toList)), ("notes".toList, .atom (.str "---\ntitle:two\n---\nBody".toList))], .list []]
    (runOn sampleDisk id h).map (fun h => getKey h 0 "title".toList) = some (some (.atom (.str "two".toList))) ∧
    (runOn sampleDisk List.reverse h).map (fun h => getKey h 0 "title".toList) = some (some (.atom (.str "one".toList))) := by
  exact ⟨by rfl, by rfl⟩

end Verif.Template
