import Verif.Lemmas.Navigation

/-!
# C40 and C41: navigation links and tables of contents
-/

set_option linter.unusedSimpArgs false
set_option linter.unusedVariables false

namespace Verif.Navigation

open Verif Verif.Labels

/-! ## C40 -/

/-- The headings of a project in reading order. -/
def headings (m : Manager) (env : Env) : List Label :=
  (m.register env).values.filter fun l => "heading".toList ∈ l.kind.getD []

/-- The documents are different ones, and targets and entries are those of dicts. -/
structure Valid (docs : List Doc) : Prop where
  ids : (docs.map (·.docId)).Nodup
  targets : ∀ d ∈ docs, d.targets.Nodup ∧ ∀ t ∈ d.targets, ∃ ext, IsTarget t ext
  contexts : ∀ d ∈ docs, d.context.keys.Nodup

theorem setNavigationLabels_eq {sep : Str} {m : Manager} (h : Reachable sep m) (env : Env)
    (hk : ∀ l ∈ (m.register env).values, l.kind ≠ none) (docs : List Doc) :
    (setNavigationLabels m env docs).2 = some (setNavigation (headings m env) docs) := by
  simp only [setNavigationLabels]
  rw [C13_by_kind m env none _ hk]
  simp [headings]

theorem target_iff (labels : List Label) (hg : Grouped labels) (rs : List Doc) (hnd : (rs.map (·.docId)).Nodup) (d : Doc)
    (hd : d ∈ rs ∨ ∀ e ∈ rs, e.docId ≠ d.docId) (v : Val) :
    (((target (rs.map (·.docId)) (labelsByDoc labels) (position (rs.map (·.docId)) d.docId) (-1)).map (fun l => Val.label l.uid)
        = some v) ↔ ∃ e l, Follows rs e d ∧ IsFirst labels e.docId l ∧ v = .label l.uid) ∧
    (((target (rs.map (·.docId)) (labelsByDoc labels) (position (rs.map (·.docId)) d.docId) 1).map (fun l => Val.label l.uid)
        = some v) ↔ ∃ e l, Follows rs d e ∧ IsFirst labels e.docId l ∧ v = .label l.uid) ∧
    (((target (rs.map (·.docId)) (labelsByDoc labels) (position (rs.map (·.docId)) d.docId) 0).map (fun l => Val.label l.uid)
        = some v) ↔ ∃ e l, (e = d ∧ d ∈ rs) ∧ IsFirst labels e.docId l ∧ v = .label l.uid) := by
  have hnd' : rs.Nodup := List.Nodup.of_map _ hnd
  by_cases hm : d ∈ rs
  · obtain ⟨i, hi⟩ := List.mem_iff_getElem?.1 hm
    rw [position_some rs hnd i d hi]
    have hf := fun e => follows_iff rs hnd' i d e hi
    have look : ∀ (j : Nat), (((rs.map (·.docId))[j]?).bind (labelsByDoc labels).get?).map (fun l => Val.label l.uid) = some v ↔
        ∃ (e : Doc) (l : Label), rs[j]? = some e ∧ IsFirst labels e.docId l ∧ v = .label l.uid := by
      intro j
      rw [List.getElem?_map]
      cases hj : rs[j]? with
      | none => simp
      | some e =>
        simp only [Option.map_some, Option.bind_some, Option.map_eq_some_iff, Option.some.injEq, exists_eq_left',
          labelsByDoc_get? labels hg]
        constructor
        · rintro ⟨l, h1, h2⟩; exact ⟨e, l, rfl, h1, h2.symm⟩
        · rintro ⟨e', l, rfl, h1, h2⟩; exact ⟨l, h1, h2.symm⟩
    refine ⟨?_, ?_, ?_⟩
    · simp only [target]
      by_cases hz : i = 0
      · subst hz
        simp only [(hf _).1]
        simp
      · have h1 : ¬ (((i : Int) + -1) < 0) := by omega
        have h2 : ((i : Int) + -1).toNat = i - 1 := by omega
        rw [if_neg h1, Option.bind_some, h2, look]
        simp only [(hf _).1]
        constructor
        · rintro ⟨e, l, a, b, c⟩; exact ⟨e, l, ⟨by omega, a⟩, b, c⟩
        · rintro ⟨e, l, a, b, c⟩; exact ⟨e, l, a.2, b, c⟩
    · simp only [target]
      have h1 : ¬ (((i : Int) + 1) < 0) := by omega
      have h2 : ((i : Int) + 1).toNat = i + 1 := by omega
      rw [if_neg h1, Option.bind_some, h2, look]
      simp only [(hf _).2]
    · simp only [target]
      have h1 : ¬ (((i : Int) + 0) < 0) := by omega
      have h2 : ((i : Int) + 0).toNat = i := by omega
      rw [if_neg h1, Option.bind_some, h2, look]
      simp only [hi, Option.some.injEq]
      constructor
      · rintro ⟨e, l, a, b, c⟩; exact ⟨e, l, ⟨a.symm, hm⟩, b, c⟩
      · rintro ⟨e, l, a, b, c⟩; exact ⟨e, l, a.1.symm, b, c⟩
  · have hno : d.docId ∉ rs.map (·.docId) := by
      rcases hd with hd | hd
      · exact absurd hd hm
      · intro hx
        obtain ⟨e, he, h⟩ := List.mem_map.1 hx
        exact hd e he h
    have hp : position (rs.map (·.docId)) d.docId = none := by simp [position, hno]
    have hfl : ∀ e, ¬ Follows rs e d ∧ ¬ Follows rs d e := by
      intro e
      constructor
      · rintro ⟨p, q, rfl⟩; exact hm (by simp)
      · rintro ⟨p, q, rfl⟩; exact hm (by simp)
    rw [hp]
    simp [target, hfl, hm]

/-- C40: for every target of the last document, the entries for the previous and next document (and the document
itself) of each document are references to the first heading of the adjacent document among those rendered to the
target, in reading order, if there is one with a heading, and there are no such entries otherwise, whatever was there
before. The full property is for every target: it fails for targets that the last document does not have
(`C40_other_targets`). -/
theorem C40_links_partial (sep : Str) (m : Manager) (h : Reachable sep m) (env : Env)
    (hk : ∀ l ∈ (m.register env).values, l.kind ≠ none) (docs : List Doc) (hv : Valid docs)
    (last : Doc) (hlast : docs.getLast? = some last) (t ext : Str) (ht : t ∈ last.targets) (hext : IsTarget t ext) :
    ∃ docs', (setNavigationLabels m env docs).2 = some docs' ∧ docs'.map (·.docId) = docs.map (·.docId) ∧
      ∀ (i : Nat) (d d' : Doc), docs[i]? = some d → docs'[i]? = some d' →
        Links (headings m env) d' ("prev_".toList ++ ext) (fun e => Follows (rendered t docs) e d) ∧
        Links (headings m env) d' ("next_".toList ++ ext) (fun e => Follows (rendered t docs) d e) ∧
        Links (headings m env) d' ("curr_".toList ++ ext) (fun e => e = d ∧ d ∈ rendered t docs) := by
  refine ⟨_, setNavigationLabels_eq h env hk docs, ?_, ?_⟩
  · rw [setNavigation_eq _ _ last hlast, List.map_map]
    apply List.map_congr_left
    intro d _
    exact (steps_docId _ _ _ _).1
  · intro i d d' hd hd'
    rw [setNavigation_eq _ _ last hlast, List.getElem?_map, hd, Option.map_some, Option.some.injEq] at hd'
    have hmem := List.mem_of_getElem? hd
    have hlm := List.mem_of_getLast? hlast
    have hr : rendered t docs ≠ [] := by
      intro e
      have : last ∈ rendered t docs := by simp [rendered, hlm, ht]
      rw [e] at this; cases this
    have hstrip : ∀ t' ∈ last.targets, strip (· = '.') t' = strip (· = '.') t → t' = t := by
      intro t' ht' e
      obtain ⟨ext', hext'⟩ := (hv.targets last hlm).2 t' ht'
      rw [strip_target hext', strip_target hext] at e
      subst e
      rw [hext'.1, hext.1]
    have hg : Grouped (headings m env) := (register_grouped h env).filter _
    have hsub : ((rendered t docs).map (·.docId)).Nodup := hv.ids.sublist (List.filter_sublist.map _)
    have hdd : d ∈ rendered t docs ∨ ∀ e ∈ rendered t docs, e.docId ≠ d.docId := by
      by_cases hx : t ∈ d.targets
      · exact Or.inl (by simp [rendered, hmem, hx])
      · right
        intro e he heq
        have hem : e ∈ docs := (List.mem_filter.1 he).1
        have : e = d := by
          obtain ⟨j, hj⟩ := List.mem_iff_getElem?.1 hem
          have h1 := idxOf_map_docId docs hv.ids i d hd
          have h2 := idxOf_map_docId docs hv.ids j e hj
          rw [heq, h1] at h2
          subst h2
          rw [hd] at hj
          simpa using hj.symm
        subst this
        have := (List.mem_filter.1 he).2
        simp [hx] at this
    have key := fun n r hnr => steps_get? docs (fun d hd => (hv.targets d hd).1) (headings m env) d last.targets
      (hv.contexts d hmem) t ht (hv.targets last hlm).1 hstrip hr n r hnr
    have hkey : ∀ n : Str, navKey n t = n ++ ('_' :: ext) := by
      intro n
      rw [navKey_eq, strip_target hext]
    have hsome := fun v => target_iff (headings m env) hg (rendered t docs) hsub d hdd v
    rw [hd'] at key
    refine ⟨?_, ?_, ?_⟩
    · intro v
      have := key "prev".toList (-1) (by decide)
      rw [hkey] at this
      rw [show "prev_".toList ++ ext = "prev".toList ++ ('_' :: ext) from rfl, this]
      exact (hsome v).1
    · intro v
      have := key "next".toList 1 (by decide)
      rw [hkey] at this
      rw [show "next_".toList ++ ext = "next".toList ++ ('_' :: ext) from rfl, this]
      exact (hsome v).2.1
    · intro v
      have := key "curr".toList 0 (by decide)
      rw [hkey] at this
      rw [show "curr_".toList ++ ext = "curr".toList ++ ('_' :: ext) from rfl, this]
      exact (hsome v).2.2

/-- C40, the failing part: entries other than those for the targets of the last document are left as they were: such links
are never set, and stale ones survive. -/
theorem C40_other_targets (sep : Str) (m : Manager) (h : Reachable sep m) (env : Env)
    (hk : ∀ l ∈ (m.register env).values, l.kind ≠ none) (docs : List Doc) (hv : Valid docs)
    (last : Doc) (hlast : docs.getLast? = some last) (k : Str)
    (hkey : ∀ t ∈ last.targets, ∀ ext, IsTarget t ext → ∀ n ∈ ["prev_", "curr_", "next_"], k ≠ n.toList ++ ext) :
    ∃ docs', (setNavigationLabels m env docs).2 = some docs' ∧
      ∀ (i : Nat) (d d' : Doc), docs[i]? = some d → docs'[i]? = some d' → d'.context.get? k = d.context.get? k := by
  refine ⟨_, setNavigationLabels_eq h env hk docs, ?_⟩
  intro i d d' hd hd'
  rw [setNavigation_eq _ _ last hlast, List.getElem?_map, hd, Option.map_some, Option.some.injEq] at hd'
  rw [← hd']
  apply steps_other _ _ _ _ (hv.contexts d (List.mem_of_getElem? hd))
  intro t ht n hn e
  obtain ⟨ext, hext⟩ := (hv.targets last (List.mem_of_getLast? hlast)).2 t ht
  rw [navKey_eq, strip_target hext] at e
  simp only [List.map_cons, List.map_nil, List.mem_cons, List.not_mem_nil, or_false] at hn
  rcases hn with rfl | rfl | rfl
  · exact hkey t ht ext hext "prev_" (by simp) (by rw [← e]; rfl)
  · exact hkey t ht ext hext "curr_" (by simp) (by rw [← e]; rfl)
  · exact hkey t ht ext hext "next_" (by simp) (by rw [← e]; rfl)

/-! A project of three documents -/

def sampleDoc (i : String) (ts : List String) (ctx : Dict Str Val) : Doc := ⟨i.toList, ts.map String.toList, ctx⟩

/-- The labels of `Props/Labels.lean`. -/
def sampleManager : Manager := Manager.init.run sep sampleOps

/-- The links of the documents. -/
def links (r : Option (List Doc)) : Option (List (Str × List (Str × Val))) := r.map fun ds => ds.map fun d => (d.docId, d.context)

def threeDocs : List Doc :=
  [sampleDoc "a" [".html", ".tex"] [], sampleDoc "b" [".tex"] [("next_html".toList, .label 7)], sampleDoc "c" [".html"] []]

/-- The hypotheses are met. -/
example : Valid threeDocs ∧ (∀ l ∈ (sampleManager.register env).values, l.kind ≠ none) := by
  refine ⟨⟨by decide, ?_, by decide⟩, by decide⟩
  intro d hd
  simp only [threeDocs, sampleDoc, List.mem_cons, List.not_mem_nil, or_false] at hd
  rcases hd with rfl | rfl | rfl
  · refine ⟨by decide, fun t ht => ?_⟩
    simp only [List.map_cons, List.map_nil, List.mem_cons, List.not_mem_nil, or_false] at ht
    rcases ht with rfl | rfl
    · exact ⟨"html".toList, by decide, by decide, by decide⟩
    · exact ⟨"tex".toList, by decide, by decide, by decide⟩
  · refine ⟨by decide, fun t ht => ?_⟩
    simp only [List.map_cons, List.map_nil, List.mem_cons, List.not_mem_nil, or_false] at ht
    subst ht
    exact ⟨"tex".toList, by decide, by decide, by decide⟩
  · refine ⟨by decide, fun t ht => ?_⟩
    simp only [List.map_cons, List.map_nil, List.mem_cons, List.not_mem_nil, or_false] at ht
    subst ht
    exact ⟨"html".toList, by decide, by decide, by decide⟩

/-- The links of `a` and `c` skip `b`, and the stale link of `b` is removed; but the targets `.tex` get no links. -/
theorem C40_tex_links_missing :
    (links (setNavigationLabels sampleManager env threeDocs).2).map (fun r => r.map fun d => d.2.map Prod.fst) =
      some [["curr_html".toList, "next_html".toList], [], ["prev_html".toList, "curr_html".toList]] := by
  decide

/-! ## C41 -/

theorem has_iff (k : TocKind) (w : Str) : k.has w = true ↔ Mentions k w := by
  cases k with
  | words l => simp [TocKind.has, Mentions]
  | text s => exact occurs_iff w s

/-- C41: the words of a table of contents. -/
theorem C41_words (sp : Char → Bool) (s : Str) (k : TocKind) :
    tocKind sp (.str s) = some k ↔ ∃ ws, k = .words ws ∧ WordsOf sp s ws := by
  simp only [tocKind, Option.some.injEq]
  constructor
  · rintro rfl; exact ⟨_, rfl, (splitWords_iff sp s _).1 rfl⟩
  · rintro ⟨ws, rfl, h⟩; rw [(splitWords_iff sp s ws).2 h]

/-- C41: only the first item of a list counts, and contents without text are errors. -/
theorem C41_content (sp : Char → Bool) (s t : Str) (l : List TocContent) :
    tocKind sp (.list (.str s :: l)) = tocKind sp (.str s) ∧ tocKind sp (.list (.tag t :: l)) = some (.text t) ∧
    tocKind sp (.tag t) = some (.text t) ∧ tocKind sp .other = none ∧ tocKind sp (.list []) = none := ⟨rfl, rfl, rfl, rfl, rfl⟩

theorem kept_filter (P : Label → Prop) (f : Label → Bool) (h : ∀ l, f l = true ↔ P l) (ls before : List Label) :
    Kept (fun _ l => P l) before ls (ls.filter f) := by
  induction ls generalizing before with
  | nil => exact .nil _
  | cons l ls ih =>
    rw [List.filter_cons]
    by_cases hl : f l = true
    · rw [if_pos hl]; exact .keep _ _ _ _ ((h l).1 hl) (ih _)
    · rw [if_neg hl]; exact .drop _ _ _ _ (fun hp => hl ((h l).2 hp)) (ih _)

theorem register_register (m : Manager) (env : Env) : (m.register env).register env = m.register env := by
  have : (m.register env).registered = true := by
    unfold Manager.register
    split
    · assumption
    · rfl
  rw [Manager.register, if_pos this]

theorem part_spec (m m0 : Manager) (env : Env) (k : TocKind) (doc : Option Str) (w w' : Str) (kind : String)
    (hm : m.register env = m0.register env)
    (hk : ∀ l ∈ (m0.register env).values, l.kind ≠ none) :
    (part m env k (if k.has "all".toList then none else doc) w w' kind.toList).1.register env = m0.register env ∧
    ∃ ls, (part m env k (if k.has "all".toList then none else doc) w w' kind.toList).2 = some ls ∧
      Kept (fun _ l => (Mentions k w ∨ Mentions k w') ∧ Listed k doc kind l) [] (m0.register env).values ls := by
  unfold part
  by_cases hw : (k.has w || k.has w') = true
  · rw [if_pos hw]
    refine ⟨?_, ?_⟩
    · have : (m.getLabelsByKind env (if k.has "all".toList then none else doc) [kind.toList]).1 = m.register env := by
        simp only [Manager.getLabelsByKind]
        split
        · rfl
        · split <;> split <;> rfl
      rw [this, hm, register_register]
    · have hk' : ∀ l ∈ (m.register env).values, l.kind ≠ none := by rw [hm]; exact hk
      rw [C13_by_kind m env _ _ hk', hm]
      refine ⟨_, rfl, kept_filter _ _ ?_ _ _⟩
      intro l
      have hw' : Mentions k w ∨ Mentions k w' := by
        rw [Bool.or_eq_true, has_iff, has_iff] at hw
        exact hw
      have hall := has_iff k "all".toList
      simp only [decide_eq_true_eq, Listed, hw', true_and]
      have hkind : kind.toList ∈ l.kind.getD [] ↔ ∃ ks, l.kind = some ks ∧ kind.toList ∈ ks := by
        cases l.kind with
        | none => simp
        | some ks => simp
      rw [hkind]
      apply and_congr_left
      intro _
      by_cases ha : k.has "all".toList = true
      · rw [if_pos ha]
        have := hall.1 ha
        exact ⟨fun _ => Or.inl this, fun _ => by simp⟩
      · have hna : ¬ Mentions k "all".toList := fun x => ha (hall.2 x)
        rw [if_neg ha]
        simp only [hna, false_or]
        cases doc with
        | none => simp
        | some d => simp
  · rw [if_neg hw]
    refine ⟨hm, [], rfl, ?_⟩
    have hw' : ¬ (Mentions k w ∨ Mentions k w') := by
      rw [Bool.or_eq_true, has_iff, has_iff] at hw
      exact hw
    have := kept_filter (fun l => (Mentions k w ∨ Mentions k w') ∧ Listed k doc kind l) (fun _ => false)
      (by intro l; simp [hw']) (m0.register env).values []
    simpa using this

/-- C41: a table of contents lists the labels of headings and documents that are asked for, in order; if it is
abbreviated, the labels of other documents are left out unless the label before is one of another document. -/
theorem C41_labels (m : Manager) (env : Env) (hk : ∀ l ∈ (m.register env).values, l.kind ≠ none) (k : TocKind)
    (doc : Option Str) :
    ∃ h d r, (getLabels m env k doc).2 = some r ∧
      Kept (fun _ l => AsksHeadings k ∧ Listed k doc "heading" l) [] (m.register env).values h ∧
      Kept (fun _ l => AsksDocuments k ∧ Listed k doc "document" l) [] (m.register env).values d ∧
      (¬ Mentions k "abbreviated".toList → r = h ++ d) ∧
      (Mentions k "abbreviated".toList → Kept (ChangeOrCurrent doc) [] (h ++ d) r) := by
  obtain ⟨h1, ls1, h2, h3⟩ := part_spec m m env k doc "heading".toList "headings".toList "heading" rfl hk
  obtain ⟨_, ls2, h5, h6⟩ := part_spec _ m env k doc "document".toList "documents".toList "document" h1 hk
  refine ⟨ls1, ls2, if k.has "abbreviated".toList then abbreviate doc none (ls1 ++ ls2) else ls1 ++ ls2, ?_, h3, h6, ?_, ?_⟩
  · simp only [getLabels]
    rw [h2, h5]
  · intro hn
    rw [if_neg (fun x => hn ((has_iff k _).1 x))]
  · intro hn
    rw [if_pos ((has_iff k _).2 hn)]
    exact abbreviate_kept doc (ls1 ++ ls2) []

theorem kept_grouped {s : Label → Prop} {b ls r : List Label} (h : Kept (fun _ l => s l) b ls r) :
    ∀ f : Label → Bool, (∀ l, f l = true ↔ s l) → r = ls.filter f := by
  intro f hf
  exact h.unique (kept_filter s f hf ls b)

/-- C41: an abbreviated list of headings has all headings of the current document and exactly the first one of each
other document (likewise for documents). The full property is for any combination: with both headings and documents
the other documents are listed twice (`C41_abbreviated_twice`). -/
theorem C41_abbreviated_partial (sep : Str) (m : Manager) (hr : Reachable sep m) (env : Env)
    (hk : ∀ l ∈ (m.register env).values, l.kind ≠ none) (k : TocKind) (doc : Option Str)
    (habb : Mentions k "abbreviated".toList) :
    (¬ AsksDocuments k → ∃ h r, (getLabels m env k doc).2 = some r ∧
      Kept (fun _ l => AsksHeadings k ∧ Listed k doc "heading" l) [] (m.register env).values h ∧
      Kept (FirstOrCurrent doc) [] h r) ∧
    (¬ AsksHeadings k → ∃ d r, (getLabels m env k doc).2 = some r ∧
      Kept (fun _ l => AsksDocuments k ∧ Listed k doc "document" l) [] (m.register env).values d ∧
      Kept (FirstOrCurrent doc) [] d r) := by
  obtain ⟨h, d, r, h1, h2, h3, _, h5⟩ := C41_labels m env hk k doc
  have h5 := h5 habb
  have hgr := register_grouped hr env
  classical
  have gh : Grouped h := by
    rw [kept_grouped h2 (fun l => decide (AsksHeadings k ∧ Listed k doc "heading" l)) (by simp)]
    exact hgr.filter _
  have gd : Grouped d := by
    rw [kept_grouped h3 (fun l => decide (AsksDocuments k ∧ Listed k doc "document" l)) (by simp)]
    exact hgr.filter _
  constructor
  · intro hn
    have : d = [] := by
      rw [kept_grouped h3 (fun _ => false) (by simp [hn])]
      simp
    subst this
    rw [List.append_nil] at h5
    refine ⟨h, r, h1, h2, h5.congr ?_⟩
    intro p l q e
    exact change_iff_first doc h gh p l q e
  · intro hn
    have : h = [] := by
      rw [kept_grouped h2 (fun _ => false) (by simp [hn])]
      simp
    subst this
    rw [List.nil_append] at h5
    refine ⟨d, r, h1, h3, h5.congr ?_⟩
    intro p l q e
    exact change_iff_first doc d gd p l q e

/-- C41: each entry has the level of its heading, and the level of the entry before if it is not a heading. -/
theorem C41_levels (labels : List Label) (es : List (Str × Nat)) :
    referenceTags labels = some es ↔ es.map Prod.fst = labels.map (·.id) ∧ Levels 1 labels (es.map Prod.snd) :=
  entries_levels labels 1 es

/-- C41: if the ids of the labels are different, then each entry shows its label. The full property has no such
hypothesis: see `C41_same_id`. -/
theorem C41_shown_partial (labels : List Label) (hid : (labels.map (·.id)).Nodup) (ns : List Nat) (hl : Levels 1 labels ns) :
    htmlEntries labels = some ((labels.map some).zip ns) := by
  have hlen : ns.length = labels.length := by
    have : ∀ n ls ms, Levels n ls ms → ms.length = ls.length := by
      intro n ls ms h
      induction h with
      | nil => rfl
      | heading _ _ _ _ _ _ _ _ _ _ ih => simp [ih]
      | same _ _ _ _ _ _ _ _ _ ih => simp [ih]
    exact this _ _ _ hl
  have hes : referenceTags labels = some ((labels.map (·.id)).zip ns) := by
    rw [C41_levels]
    rw [List.map_fst_zip (by simp [hlen]), List.map_snd_zip (by simp [hlen])]
    exact ⟨rfl, hl⟩
  simp only [htmlEntries]
  rw [hes, Option.map_some, Option.some.injEq]
  have hdict : Dict.update [] (labels.map fun l => (l.id, l)) = labels.map fun l => (l.id, l) := by
    rw [Dict.update_append_new]
    · rfl
    · simpa [List.map_map, Function.comp_def] using hid
  rw [hdict]
  have hget : ∀ l ∈ labels, Dict.get? (labels.map fun l => (l.id, l)) l.id = some l := by
    intro l hl
    apply Dict.get?_of_mem
    · simpa [Dict.keys, List.map_map, Function.comp_def] using hid
    · exact List.mem_map.2 ⟨l, hl, rfl⟩
  rw [List.zip_map_left, List.zip_map_left, List.map_map]
  apply List.map_congr_left
  rintro ⟨l, n⟩ h
  simp only [Function.comp, Prod.map, id, Prod.mk.injEq, and_true]
  exact hget l (List.of_mem_zip h).1

/-! ### Findings -/

def tocOps : List Op :=
  [.add "intro".toList (heading "section") "a".toList true "A".toList,
   .add "intro".toList (heading "section") "b".toList true "B".toList,
   .add "more".toList (heading "section") "b".toList true "B".toList,
   .add "doc:a".toList (some ["document".toList]) "a".toList false "A".toList,
   .add "doc:b".toList (some ["document".toList]) "b".toList false "B".toList]

def tocManager : Manager := Manager.init.run sep tocOps

def show_ (r : Option (List Label)) : Option (List (Str × Str)) := r.map fun ls => ls.map fun l => (l.docId, l.id)

/-- The hypotheses are met. -/
example : (∀ l ∈ (tocManager.register env).values, l.kind ≠ none) ∧
    show_ (getLabels tocManager env (.words ["all".toList, "headings".toList, "abbreviated".toList]) (some "a".toList)).2 =
      some [("a".toList, "intro".toList), ("b".toList, "intro".toList)] := by decide

example : show_ (getLabels tocManager env (.words ["headings".toList]) (some "b".toList)).2 =
    some [("b".toList, "intro".toList), ("b".toList, "more".toList)] := by decide

/-- An abbreviated list of headings and documents has other documents twice. -/
theorem C41_abbreviated_twice :
    show_ (getLabels tocManager env (.words ["all".toList, "headings".toList, "documents".toList, "abbreviated".toList])
      (some "a".toList)).2 =
      some [("a".toList, "intro".toList), ("b".toList, "intro".toList), ("a".toList, "doc:a".toList),
        ("b".toList, "doc:b".toList)] := by decide

/-- If two documents have a label with the same id, both entries in html lead to the last one, and both entries in tex lead
to the first one. -/
theorem C41_same_id :
    let labels := (getLabels tocManager env (.words ["all".toList, "headings".toList]) (some "a".toList)).2.getD []
    labels.map (fun l => (l.docId, l.id)) =
      [("a".toList, "intro".toList), ("b".toList, "intro".toList), ("b".toList, "more".toList)] ∧
    (htmlEntries labels).map (fun es => es.map fun e => e.1.map (·.docId)) =
      some [some "b".toList, some "b".toList, some "b".toList] ∧
    (texEntries tocManager env sep labels).map (fun es => es.map fun e => e.1.map (·.docId)) =
      some [some "a".toList, some "a".toList, some "b".toList] := by decide

/-- The text of a tag is searched for parts of words: 'overall' is read as 'all'. -/
theorem C41_part_of_word : TocKind.has (.text "overall headings".toList) "all".toList = true := by decide

end Verif.Navigation
