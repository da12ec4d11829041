import Verif.Lemmas.Labels
import Mathlib.Data.List.Induction
import Mathlib.Data.List.Nodup

/-!
# C10–C15: labels
-/

set_option linter.unusedSimpArgs false
set_option linter.unusedVariables false

namespace Verif.Labels

open Verif Verif.Labels.Spec

/-- The labels of a manager, in order. -/
def Manager.values (m : Manager) : List Label := m.labels.map Prod.snd

/-- A manager after any history. -/
def Reachable (sep : Str) (m : Manager) : Prop := ∃ ops, m = Manager.init.run sep ops

theorem Reachable.inv {sep : Str} {m : Manager} (h : Reachable sep m) : Inv m := by
  obtain ⟨ops, rfl⟩ := h; exact inv_run sep ops _ inv_init

theorem Reachable.step {sep : Str} {m : Manager} (h : Reachable sep m) (op : Op) : Reachable sep (m.step sep op) := by
  obtain ⟨ops, rfl⟩ := h; exact ⟨ops ++ [op], by simp [Manager.run]⟩

/-! ### Concrete data for the non-vacuity checks -/

def sep : Str := "::".toList

/-- The default `label_resets` (`settings.py:162-170`). -/
def defaultResets : Dict Str (List Str) :=
  [("part".toList, ["chapter".toList, "section".toList, "subsection".toList, "subsubsection".toList]),
   ("chapter".toList, ["section".toList, "subsection".toList, "subsubsection".toList, "figure".toList, "table".toList]),
   ("section".toList, ["subsection".toList, "subsubsection".toList]),
   ("subsection".toList, ["subsubsection".toList])]

def env : Env := ⟨some ["a".toList, "b".toList, "c".toList], defaultResets⟩

def heading (k : String) : Option (List Str) := some ["heading".toList, k.toList]

/-- Documents `a` (a chapter), `b` (a figure) and `c` (a section), added in another order. -/
def sampleOps : List Op :=
  [.add "s1".toList (heading "section") "c".toList true [],
   .add "ch1".toList (heading "chapter") "a".toList true [],
   .add "f1".toList (some ["figure".toList]) "b".toList true [],
   .add "ch2".toList (heading "chapter") "a".toList true [],
   .add "x".toList none "gone".toList false []]

/-- What the checks look at. -/
def view (m : Manager) : List (Str × Str × Option (List Nat) × Option Nat × Option Nat) :=
  m.values.map fun l => (l.docId, l.id, l.order, l.links .part, l.links .chapter)

example : view ((Manager.init.run sep sampleOps).register env) =
    [("a".toList, "ch1".toList, some [1, 1], none, some 1), ("a".toList, "ch2".toList, some [2, 2], none, some 3),
     ("b".toList, "f1".toList, some [1], none, some 3), ("c".toList, "s1".toList, some [3, 1], none, some 3)] := by
  rfl

/-! ### C10 -/

/-- C10. After any history no two labels have the same document and identifier. -/
theorem C10_unique (sep : Str) (m : Manager) (h : Reachable sep m) :
    (m.values.map fun l => (l.docId, l.id)).Nodup := h.inv.values_nodup

/-- C10. Adding a label raises `DuplicateLabel` exactly if its document has a label with that identifier, and then
the labels stay as they are; otherwise the label comes last and all others stay as they are. -/
theorem C10_add (sep : Str) (m : Manager) (h : Reachable sep m) (id : Str) (kind : Option (List Str)) (doc : Str)
    (content : Bool) (title : Str) :
    let d := (parseId sep id).1.getD doc
    let lid := (parseId sep id).2
    let r := m.addLabel sep id kind doc content title
    ((∃ l ∈ m.values, l.docId = d ∧ l.id = lid) → r.2 = none ∧ r.1.values = m.values) ∧
    ((¬ ∃ l ∈ m.values, l.docId = d ∧ l.id = lid) → ∃ l, r.2 = some l ∧ l.docId = d ∧ l.id = lid ∧ l.kind = kind ∧
      l.title = title ∧ r.1.values = m.values ++ [l]) := by
  intro d lid r
  have hkey : Dict.has m.labels (d, lid) = true ↔ ∃ l ∈ m.values, l.docId = d ∧ l.id = lid := by
    rw [Dict.has_iff, keys_eq_of_key m.labels h.inv.key, List.mem_map]
    constructor
    · rintro ⟨l, h1, h2⟩; simp only [Prod.mk.injEq] at h2; exact ⟨l, h1, h2⟩
    · rintro ⟨l, h1, h2⟩; exact ⟨l, h1, by simp [h2.1, h2.2]⟩
  constructor
  · intro hex
    have : r = ({ m with registered := false }, none) := by
      simp only [r, Manager.addLabel]
      rw [if_pos (hkey.2 hex)]
    rw [this]; exact ⟨rfl, rfl⟩
  · intro hno
    have hn : ¬ Dict.has m.labels (d, lid) = true := fun hh => hno (hkey.1 hh)
    refine ⟨⟨m.next, d, lid, kind, content, title, none, fun _ => none⟩, ?_, rfl, rfl, rfl, rfl, ?_⟩
    · simp only [r, Manager.addLabel]
      rw [if_neg hn]
    · simp only [r, Manager.addLabel]
      rw [if_neg hn]
      simp only [Manager.values]
      rw [Dict.set_new _ _ _ (by rw [← Dict.has_iff]; exact hn)]
      simp [d, lid]

/-- Both cases happen. -/
example : let m := Manager.init.run sep sampleOps
    (m.addLabel sep "a::ch1".toList none "b".toList true []).2.isSome = false ∧
    (m.addLabel sep "ch1".toList none "b".toList true []).2.isSome = true := by decide

/-! ### C11 -/

/-- C11. Reading of identifiers: with one separator the document is given, without separator it is not. -/
theorem C11_parse (sep doc lid : Str) (hs : sep ≠ [])
    (hdoc : ∀ x y, doc = x ++ y → y ≠ [] → ¬ sep <+: y ++ (sep ++ lid)) (hlid : ¬ sep <:+: lid) :
    parseId sep (doc ++ (sep ++ lid)) = (some doc, lid) ∧ parseId sep lid = (none, lid) := by
  simp only [parseId]
  rw [split_append sep doc lid hs hdoc, split_of_not_infix sep lid hs hlid]
  exact ⟨rfl, rfl⟩

/-- C11. With the separator of the settings: a document name without `::` that does not end in a colon. -/
theorem C11_parse_default (doc lid : Str) (hdoc : ¬ sep <:+: doc) (hend : doc.getLast? ≠ some ':')
    (hlid : ¬ sep <:+: lid) :
    parseId sep (doc ++ (sep ++ lid)) = (some doc, lid) ∧ parseId sep lid = (none, lid) := by
  refine C11_parse sep doc lid (by decide) ?_ hlid
  rintro x y rfl hy ⟨t, ht⟩
  match y, hy with
  | [c], _ =>
    simp [sep] at ht
    exact hend (by simp [← ht.1])
  | c :: d :: y, _ =>
    simp [sep] at ht
    obtain ⟨rfl, rfl, _⟩ := ht
    exact hdoc ⟨x, y, by simp [sep]⟩

example : parseId sep "src/a:b.dm::fig:x".toList = (some "src/a:b.dm".toList, "fig:x".toList) := by decide

/-- C11. Lookup with a document: the label of that document with that identifier, if there is one. -/
theorem C11_with_document (sep : Str) (m : Manager) (h : Reachable sep m) (env : Env) (id d lid : Str)
    (hid : parseId sep id = (some d, lid)) (l : Label) :
    (m.getLabel env sep id).2 = some l ↔ l ∈ (m.register env).values ∧ l.docId = d ∧ l.id = lid := by
  have hi := h.inv.register env
  simp only [Manager.getLabel, hid, Manager.values]
  constructor
  · intro hg
    have hm := Dict.mem_of_get? _ _ _ hg
    have := hi.key _ _ hm
    simp at this
    refine ⟨?_, this.1.symm, this.2.symm⟩
    rw [List.mem_map]
    exact ⟨_, hm, rfl⟩
  · rintro ⟨hm, rfl, rfl⟩
    rw [List.mem_map] at hm
    obtain ⟨⟨k, l'⟩, h1, rfl⟩ := hm
    have := hi.key _ _ h1
    subst this
    exact Dict.get?_of_mem _ hi.nodup _ _ h1

/-- C11. Lookup without a document: the first label in document order with that identifier. -/
theorem C11_without_document (sep : Str) (m : Manager) (h : Reachable sep m) (env : Env) (id lid : Str)
    (hid : parseId sep id = (none, lid)) (l : Label) :
    (m.getLabel env sep id).2 = some l ↔
      ∃ a b, (m.register env).values = a ++ l :: b ∧ l.id = lid ∧ ∀ x ∈ a, x.id ≠ lid := by
  have hi := h.inv.register env
  have e : (m.getLabel env sep id).2 = (m.register env).values.find? (fun l => l.id = lid) := by
    simp only [Manager.getLabel, hid, Manager.values]
    have : ∀ d : Dict Key Label, (∀ k l, (k, l) ∈ d → k = (l.docId, l.id)) →
        (d.find? fun kl => decide (kl.1.2 = lid)).map Prod.snd = (d.map Prod.snd).find? (fun l => decide (l.id = lid)) := by
      intro d hd
      induction d with
      | nil => rfl
      | cons kl d ih =>
        obtain ⟨k, l⟩ := kl
        have hk := hd k l (by simp)
        simp only [List.map_cons, List.find?_cons, hk]
        by_cases hl : l.id = lid
        · simp [hl]
        · simp only [hl, decide_false]
          exact ih (fun k l h => hd k l (by simp [h]))
    exact this _ hi.key
  rw [e, List.find?_eq_some_iff_append]
  constructor
  · rintro ⟨h1, a, b, h2, h3⟩
    exact ⟨a, b, h2, by simpa using h1, by simpa using h3⟩
  · rintro ⟨a, b, h2, h1, h3⟩
    exact ⟨by simpa using h1, a, b, h2, by simpa using h3⟩

/-- C11. `LabelNotFound` is raised exactly if no label matches. -/
theorem C11_not_found (sep : Str) (m : Manager) (h : Reachable sep m) (env : Env) (id : Str) :
    (m.getLabel env sep id).2 = none ↔
      ∀ l ∈ (m.register env).values, ¬ (l.id = (parseId sep id).2 ∧ ∀ d, (parseId sep id).1 = some d → l.docId = d) := by
  rcases hid : parseId sep id with ⟨d, lid⟩
  cases hg : (m.getLabel env sep id).2 with
  | some l =>
    simp only [reduceCtorEq, false_iff, Classical.not_forall]
    cases d with
    | some d =>
      have := (C11_with_document sep m h env id d lid hid l).1 hg
      exact ⟨l, this.1, by simp [this.2.1, this.2.2]⟩
    | none =>
      obtain ⟨a, b, h1, h2, _⟩ := (C11_without_document sep m h env id lid hid l).1 hg
      exact ⟨l, by rw [h1]; simp, by simp [h2]⟩
  | none =>
    simp only [true_iff]
    rintro l hl ⟨h1, h2⟩
    cases d with
    | some d =>
      have := (C11_with_document sep m h env id d lid hid l).2 ⟨hl, h2 d rfl, h1⟩
      rw [this] at hg; simp at hg
    | none =>
      have hex : ∃ l', (m.register env).values.find? (fun l => l.id = lid) = some l' := by
        cases hf : (m.register env).values.find? (fun l => l.id = lid) with
        | some l' => exact ⟨l', rfl⟩
        | none =>
          rw [List.find?_eq_none] at hf
          have := hf l hl
          simp at this
          exact absurd h1 this
      obtain ⟨l', hl'⟩ := hex
      rw [List.find?_eq_some_iff_append] at hl'
      obtain ⟨h3, a, b, h4, h5⟩ := hl'
      have := (C11_without_document sep m h env id lid hid l').2
        ⟨a, b, h4, by simpa using h3, by simpa using h5⟩
      rw [this] at hg; simp at hg

/-- An operation that keeps the labels of a document: it does not reset it, and it finds it in the project. -/
def Keeps (d : Str) : Op → Prop
  | .add .. => True
  | .reset none => False
  | .reset (some ids) => d ∉ ids
  | .register env => ∀ ids, env.docIds = some ids → d ∈ ids

theorem register_keeps {m : Manager} (hi : Inv m) (env : Env) (l : Label) (hl : l ∈ m.values)
    (hk : ∀ ids, env.docIds = some ids → l.docId ∈ ids) : ∃ l' ∈ (m.register env).values, given l' = given l := by
  cases hr : m.registered with
  | true => exact ⟨l, by simpa [Manager.register, hr] using hl, rfl⟩
  | false =>
    have e := (register_labels hi env hr).1
    have hg : given l ∈ ((m.register env).values).map given := by
      unfold Manager.values
      rw [e, registerLabels_given, List.mem_map]
      refine ⟨l, ?_, rfl⟩
      rw [byDocument_mem]
      refine ⟨hl, ?_⟩
      cases hd : env.docIds with
      | none => exact List.mem_map_of_mem (f := Label.docId) hl
      | some ids => exact hk ids hd
    rw [List.mem_map] at hg
    exact hg

/-- C11. A label that was added is found under its document and identifier, whatever happens in between, as
long as its document is not reset and is part of the project; and it is the label that was added. -/
theorem C11_added_is_found (sep : Str) (m : Manager) (h : Reachable sep m) (id : Str) (kind : Option (List Str))
    (doc : Str) (content : Bool) (title : Str) (l : Label) (m1 : Manager)
    (hadd : m.addLabel sep id kind doc content title = (m1, some l))
    (ops : List Op) (hops : ∀ op ∈ ops, Keeps l.docId op)
    (env : Env) (henv : ∀ ids, env.docIds = some ids → l.docId ∈ ids)
    (id' : Str) (hid' : parseId sep id' = (some l.docId, l.id)) :
    ∃ l', ((m1.run sep ops).getLabel env sep id').2 = some l' ∧ given l' = given l := by
  have hr1 : Reachable sep m1 := by
    have := h.step (.add id kind doc content title)
    simp only [Manager.step, hadd] at this
    exact this
  have hl1 : ∃ l' ∈ m1.values, given l' = given l := by
    have := C10_add sep m h id kind doc content title
    simp only [hadd] at this
    by_cases hex : ∃ l ∈ m.values, l.docId = (parseId sep id).1.getD doc ∧ l.id = (parseId sep id).2
    · have := (this.1 hex).1; simp at this
    · obtain ⟨l', e, _, _, _, _, h2⟩ := this.2 hex
      simp at e; subst e
      exact ⟨l, by rw [h2]; simp, rfl⟩
  clear hadd
  -- the label stays
  have stay : ∀ ops (m : Manager), Reachable sep m → (∃ l' ∈ m.values, given l' = given l) →
      (∀ op ∈ ops, Keeps l.docId op) →
      Reachable sep (m.run sep ops) ∧ ∃ l' ∈ (m.run sep ops).values, given l' = given l := by
    intro ops
    induction ops with
    | nil => intro m hm hl _; exact ⟨hm, hl⟩
    | cons op ops ih =>
      intro m hm hl hk
      apply ih (m.step sep op) (hm.step op) _ (fun o ho => hk o (by simp [ho]))
      obtain ⟨l', hl', hg⟩ := hl
      have hdoc : l'.docId = l.docId := congrArg Given.docId hg
      have hkop := hk op (by simp)
      cases op with
      | add id kind doc content title =>
        have := C10_add sep m hm id kind doc content title
        simp only [Manager.step]
        by_cases hex : ∃ l ∈ m.values, l.docId = (parseId sep id).1.getD doc ∧ l.id = (parseId sep id).2
        · rw [(this.1 hex).2]; exact ⟨l', hl', hg⟩
        · obtain ⟨l2, _, _, _, _, _, h2⟩ := this.2 hex
          rw [h2]; exact ⟨l', by simp [hl'], hg⟩
      | reset ids =>
        cases ids with
        | none => exact absurd hkop (by simp [Keeps])
        | some ids =>
          refine ⟨l', ?_, hg⟩
          simp only [Manager.step, Manager.reset, Manager.values, List.mem_map] at hl' ⊢
          obtain ⟨⟨k, l''⟩, h1, rfl⟩ := hl'
          refine ⟨(k, l''), ?_, rfl⟩
          rw [List.mem_filter]
          refine ⟨h1, ?_⟩
          have := hm.inv.key _ _ h1
          simp only [Keeps] at hkop
          simp only at hdoc
          simp [this, hdoc, hkop]
      | register env =>
        obtain ⟨l2, h1, h2⟩ := register_keeps hm.inv env l' hl' (by rw [hdoc]; exact hkop)
        exact ⟨l2, h1, by rw [h2, hg]⟩
  obtain ⟨hr2, l2, h2, hg2⟩ := stay ops m1 hr1 hl1 hops
  obtain ⟨l3, h3, hg3⟩ := register_keeps hr2.inv env l2 h2
    (by rw [show l2.docId = l.docId from congrArg Given.docId hg2]; exact henv)
  have hg : given l3 = given l := by rw [hg3, hg2]
  refine ⟨l3, ?_, hg⟩
  rw [C11_with_document sep _ hr2 env id' l.docId l.id hid']
  exact ⟨h3, congrArg Given.docId hg, congrArg Given.id hg⟩

/-- The hypotheses of the theorems hold in a concrete case. -/
example : let m := Manager.init.run sep sampleOps
    let m1 := (m.addLabel sep "s2".toList (heading "section") "c".toList true "T".toList).1
    let ops := [Op.register env, .reset (some ["a".toList]), .add "y".toList none "b".toList true []]
    ((m1.run sep ops).getLabel env sep "c::s2".toList).2.map (fun l => (l.docId, l.id, l.title, l.order)) =
      some ("c".toList, "s2".toList, "T".toList, some [2, 2]) ∧
    ((m1.run sep ops).getLabel env sep "ch1".toList).2.isSome = false := by decide

/-- Finding: an identifier with more than one separator is cut at the first one, which is then taken
for an identifier in any document. -/
theorem C11_two_separators : parseId sep "a::b::c".toList = (none, "a".toList) := by decide

/-! ### C12 -/

/-- C12. After a registration the labels are those of the documents of the project, document by document in
the order of the project (without a root document: of the labels themselves), those of one document in the
order in which they were. -/
theorem C12_order (sep : Str) (m : Manager) (h : Reachable sep m) (env : Env) (hr : m.registered = false) :
    (m.register env).values.map given =
      (byDocument (env.docIds.getD (m.values.map Label.docId)) m.values).map given := by
  unfold Manager.values
  rw [(register_labels h.inv env hr).1, registerLabels_given]

/-- C12. So the labels of removed documents are dropped, all others are kept, in the order they were in. -/
theorem C12_kept_and_dropped (sep : Str) (m : Manager) (h : Reachable sep m) (env : Env) (hr : m.registered = false)
    (ids : List Str) (hids : env.docIds = some ids) (d : Str) :
    ((m.register env).values.filter fun l => l.docId = d).map given =
      if d ∈ ids then (m.values.filter fun l => l.docId = d).map given else [] := by
  have hf : ∀ ls : List Label, (ls.filter fun l => decide (l.docId = d)).map given =
      (ls.map given).filter (fun g => decide (g.docId = d)) := by
    intro ls
    rw [List.filter_map]; rfl
  rw [hf, C12_order sep m h env hr, ← hf, hids, Option.getD_some]
  split
  · rename_i hd; rw [byDocument_filter _ _ _ hd]
  · rename_i hd
    rw [List.map_eq_nil_iff, List.filter_eq_nil_iff]
    intro l hl
    rw [byDocument_mem] at hl
    simp
    rintro rfl
    exact hd hl.2

/-- C12. Documents come in the order of the project: labels of different documents are never mixed. -/
theorem C12_grouped (sep : Str) (m : Manager) (h : Reachable sep m) (env : Env) (hr : m.registered = false)
    (ids : List Str) (hids : env.docIds = some ids) :
    (m.register env).values.Pairwise fun l l' => ids.idxOf l.docId ≤ ids.idxOf l'.docId := by
  have key : ((m.register env).values.map given).Pairwise fun g g' => ids.idxOf g.docId ≤ ids.idxOf g'.docId := by
    rw [C12_order sep m h env hr, hids, Option.getD_some, List.pairwise_map, ← reorder_list]
    exact sortedBy_pairwise _ _
  rw [List.pairwise_map] at key
  exact key

/-- C12. A change is always seen: after adding a label or a reset the manager registers again at the next lookup; and
whenever it does not, its labels are as the last registration left them. So the theorems on `register` describe what
every lookup sees. -/
theorem C12_up_to_date (sep : Str) (m : Manager) (h : Reachable sep m) :
    (∀ id kind doc content title, (m.addLabel sep id kind doc content title).1.registered = false) ∧
    (∀ ids, (m.reset ids).registered = false) ∧
    (m.registered = true → ∃ m0 env, Reachable sep m0 ∧ m0.registered = false ∧ m = m0.register env ∧
      ∀ env', m.register env' = m) := by
  have h1 : ∀ (m : Manager) id kind doc content title,
      (m.addLabel sep id kind doc content title).1.registered = false := by
    intro m id kind doc content title
    simp only [Manager.addLabel]
    split <;> rfl
  have h2 : ∀ (m : Manager) ids, (m.reset ids).registered = false := by
    intro m ids; cases ids <;> rfl
  refine ⟨h1 m, h2 m, ?_⟩
  intro hr
  obtain ⟨ops, rfl⟩ := h
  induction ops using List.reverseRecOn with
  | nil => simp [Manager.run, Manager.init] at hr
  | append_singleton ops op ih =>
    have e : Manager.init.run sep (ops ++ [op]) = (Manager.init.run sep ops).step sep op := by simp [Manager.run]
    rw [e] at hr ⊢
    cases op with
    | add id kind doc content title => rw [Manager.step, h1] at hr; simp at hr
    | reset ids => rw [Manager.step, h2] at hr; simp at hr
    | register env =>
      simp only [Manager.step] at hr ⊢
      have hreg : ∀ env', ((Manager.init.run sep ops).register env).register env' =
          (Manager.init.run sep ops).register env := by
        intro env'
        rw [Manager.register, if_pos hr]
      cases hr0 : (Manager.init.run sep ops).registered with
      | false => exact ⟨_, env, ⟨ops, rfl⟩, hr0, rfl, hreg⟩
      | true =>
        obtain ⟨m0, env0, a, b, c, d⟩ := ih hr0
        exact ⟨m0, env0, a, b, by rw [d env]; exact c, hreg⟩

theorem setOrders_idem (resets : Dict Str (List Str)) (c : Counter) (ls : List Label) :
    setOrders resets c (setOrders resets c ls) = setOrders resets c ls := by
  induction ls generalizing c with
  | nil => rfl
  | cons l ls ih =>
    cases hk : l.kind with
    | none => simp only [setOrders, hk, ih]
    | some ks => simp only [setOrders, hk, ih]

theorem setLinks_idem (cur : Links) (ls : List Label) : setLinks cur (setLinks cur ls) = setLinks cur ls := by
  induction ls generalizing cur with
  | nil => rfl
  | cons l ls ih =>
    cases hc : l.content with
    | false => simp [setLinks, hc, ih]
    | true =>
      have he : ∀ lk, enter cur { l with links := lk } = enter cur l := fun lk => rfl
      have ha : assign (assign l.links (enter cur l)) (enter cur l) = assign l.links (enter cur l) := by
        funext r
        simp only [assign]
        cases enter cur l r <;> rfl
      have e : ∀ (l : Label) ls, l.content = true → setLinks cur (l :: ls) =
          { l with links := assign l.links (enter cur l) } :: setLinks (enter cur l) ls := by
        intro l ls h; simp [setLinks, h]
      rw [e l ls hc, e _ _ (by exact hc)]
      show ({ l with links := assign (assign l.links (enter cur l)) (enter cur l) } ::
        setLinks (enter cur l) (setLinks (enter cur l) ls)) = _
      rw [ih, ha]

theorem setOrders_setLinks (resets : Dict Str (List Str)) (c : Counter) (cur : Links) (ls : List Label) :
    setOrders resets c (setLinks cur ls) = setLinks cur (setOrders resets c ls) := by
  induction ls generalizing c cur with
  | nil => rfl
  | cons l ls ih =>
    cases hc : l.content <;> cases hk : l.kind <;> simp [setLinks, setOrders, hc, hk, ih]
    exact ⟨by simp [enter, hk], by simp [enter, hk]⟩

theorem pairwise_idxOf_self {β : Type} [BEq β] [LawfulBEq β] (g : β → Nat) (l : List β)
    (hinj : ∀ x ∈ l, ∀ y ∈ l, g x = g y → x = y) (h : l.Pairwise fun x y => g x ≤ g y) :
    l.Pairwise fun x y => l.idxOf x ≤ l.idxOf y := by
  induction l with
  | nil => exact List.Pairwise.nil
  | cons x t ih =>
    rw [List.pairwise_cons] at h ⊢
    refine ⟨fun y _ => by simp [List.idxOf_cons], ?_⟩
    have ih := ih (fun a ha b hb => hinj a (by simp [ha]) b (by simp [hb])) h.2
    refine (ih.and h.2).imp_of_mem ?_
    rintro y z hy hz ⟨h1, h2⟩
    by_cases hyx : y = x
    · subst hyx; simp [List.idxOf_cons]
    · by_cases hzx : z = x
      · subst hzx
        have := h.1 y hy
        exact absurd (hinj y (by simp [hy]) z (by simp) (by omega)) hyx
      · rw [List.idxOf_cons_ne _ (Ne.symm hyx), List.idxOf_cons_ne _ (Ne.symm hzx)]
        omega

/-- C12. A registration lasts: until a label is added or the labels are reset, another one changes nothing, whatever
the project is then. -/
theorem C12_registered_once (m : Manager) (env env' : Env) :
    (m.register env).registered = true ∧ (m.register env).register env' = m.register env := by
  have h : (m.register env).registered = true := by
    simp only [Manager.register]
    split
    · assumption
    · rfl
  exact ⟨h, by rw [Manager.register, if_pos h]⟩

/-- C12. Registering again, with the project unchanged, changes nothing at all (even if the manager was told to
register again by a reset or an attempt to add a label). -/
theorem C12_register_again (sep : Str) (m : Manager) (h : Reachable sep m) (env : Env) (hr : m.registered = false) :
    ({ m.register env with registered := false }.register env).labels = (m.register env).labels := by
  have hi := h.inv
  obtain ⟨e1, e2⟩ := register_labels hi env hr
  have hi2 := hi.register env
  have hi3 : Inv { m.register env with registered := false } := ⟨hi2.nodup, hi2.key, hi2.fresh, hi2.uids⟩
  obtain ⟨_, e4⟩ := register_labels hi3 env rfl
  rw [e4]
  have e5 : List.map Prod.snd ({ m.register env with registered := false } : Manager).labels =
      registerLabels env (m.labels.map Prod.snd) := e1
  rw [e5, e2]
  congr 1
  generalize hR : registerLabels env (m.labels.map Prod.snd) = R
  -- the order of the result is stable
  have hgiv := registerLabels_given env (m.labels.map Prod.snd)
  rw [hR] at hgiv
  generalize hI : env.docIds.getD ((m.labels.map Prod.snd).map Label.docId) = ids at hgiv
  have hall : ∀ l ∈ R, l.docId ∈ ids := by
    intro l hl
    have : given l ∈ R.map given := List.mem_map_of_mem hl
    rw [hgiv, List.mem_map] at this
    obtain ⟨l', h1, h2⟩ := this
    rw [byDocument_mem] at h1
    have := congrArg Given.docId h2
    simp only [given] at this
    rw [← this]; exact h1.2
  have hsorted : R.Pairwise fun l l' => ids.idxOf l.docId ≤ ids.idxOf l'.docId := by
    have key : (R.map given).Pairwise fun g g' => ids.idxOf g.docId ≤ ids.idxOf g'.docId := by
      rw [hgiv, List.pairwise_map, ← reorder_list]
      exact sortedBy_pairwise _ _
    rw [List.pairwise_map] at key
    exact key
  have hreo : reorder env.docIds R = R := by
    cases hd : env.docIds with
    | some ids' =>
      rw [hd] at hI
      simp only [Option.getD_some] at hI
      subst hI
      unfold reorder
      simp only
      rw [List.filter_eq_self.2 (by simpa using hall)]
      exact sortedBy_of_sorted _ _ hsorted
    | none =>
      have hs2 : R.Pairwise fun l l' => (R.map Label.docId).idxOf l.docId ≤ (R.map Label.docId).idxOf l'.docId := by
        have := pairwise_idxOf_self (fun d => ids.idxOf d) (R.map Label.docId)
          (by
            intro x hx y hy hxy
            obtain ⟨lx, hlx, rfl⟩ := List.mem_map.1 hx
            obtain ⟨ly, hly, rfl⟩ := List.mem_map.1 hy
            exact (List.idxOf_inj (hall lx hlx)).1 hxy)
          (by rw [List.pairwise_map]; exact hsorted)
        rw [List.pairwise_map] at this
        exact this
      rw [reorder_eq, Option.getD_none, ← reorder_list]
      rw [List.filter_eq_self.2 (by intro l hl; simp; exact ⟨l, hl, rfl⟩)]
      exact sortedBy_of_sorted _ _ hs2
  rw [registerLabels, hreo, ← hR, registerLabels, setOrders_setLinks, setOrders_idem, setLinks_idem]

example : (Manager.init.run sep sampleOps).registered = false := by decide

/-! ### C13 -/

/-- C13. After a registration every label with kinds has one number for each of its kinds, which is the number of
times the kind came up, along the document order, since the last kind that is configured to reset it. -/
theorem C13_numbers (sep : Str) (m : Manager) (h : Reachable sep m) (env : Env) (hr : m.registered = false)
    (pre : List Label) (l : Label) (post : List Label) (hv : (m.register env).values = pre ++ l :: post)
    (ks : List Str) (hk : l.kind = some ks) :
    ∃ ns, l.order = some ns ∧ ns.length = ks.length ∧
      ∀ i (hi : i < ks.length), ns[i]? = some (number env.resets (kinds pre ++ ks.take (i + 1)) ks[i]) := by
  unfold Manager.values at hv
  rw [(register_labels h.inv env hr).1, registerLabels] at hv
  generalize hR : reorder env.docIds (m.labels.map Prod.snd) = R at hv
  have hgiv : (pre ++ l :: post).map given = R.map given := by
    rw [← hv, setLinks_given, setOrders_given]
  have hord : (pre ++ l :: post).map Label.order = (setOrders env.resets (fun _ => 0) R).map Label.order := by
    rw [← hv, setLinks_order]
  -- the same place in the list before
  have hlen : pre.length < R.length := by
    have := congrArg List.length hgiv
    simp at this; omega
  have hsplit : R = R.take pre.length ++ R[pre.length] :: R.drop (pre.length + 1) := by
    rw [List.getElem_cons_drop]; simp
  have hpre : (R.take pre.length).map given = pre.map given := by
    rw [List.map_take, ← hgiv]; simp
  have hl0 : given R[pre.length] = given l := by
    have : (R.map given)[pre.length]? = some (given l) := by rw [← hgiv]; simp
    rw [List.getElem?_map, List.getElem?_eq_getElem hlen] at this
    simpa using this
  obtain ⟨l', h1, h2⟩ := setOrders_spec env.resets R (fun _ => 0) [] (fun k => (number_nil _ _).symm)
    (R.take pre.length) R[pre.length] (R.drop (pre.length + 1)) hsplit
  have hkind : R[pre.length].kind = some ks := by
    rw [← hk]; exact congrArg Given.kind hl0
  rw [hkind] at h2
  obtain ⟨ns, h3, h4, h5⟩ := h2
  have hk2 : kinds (R.take pre.length) = kinds pre := by
    have : ∀ ls : List Label, kinds ls = (ls.map given).flatMap (fun g => g.kind.getD []) := by
      intro ls; simp only [kinds, List.flatMap_map]; rfl
    rw [this, this, hpre]
  have hlo : l.order = l'.order := by
    have e1 : ((pre ++ l :: post).map Label.order)[pre.length]? = some l.order := by simp
    rw [hord, List.getElem?_map] at e1
    have e2 : (R.take pre.length).length = pre.length := by simp; omega
    rw [e2] at h1
    rw [h1] at e1
    simpa using e1.symm
  refine ⟨ns, by rw [hlo, h3], h4, ?_⟩
  intro i hi
  have := h5 i hi
  simpa [hk2] using this

/-- C13. Numbers start at one. -/
theorem C13_first (resets : Dict Str (List Str)) (evs : List Str) (k : Str) (hself : ¬ Resets resets k k)
    (h : k ∉ evs) : number resets (evs ++ [k]) k = 1 := by
  rw [number_snoc, if_neg hself, if_pos rfl]
  have : number resets evs k = 0 := by
    unfold number
    apply List.count_eq_zero_of_not_mem
    intro hm
    exact h (List.mem_reverse.1 ((List.takeWhile_sublist _).subset hm))
  omega

/-- C13. Numbers go up by one from one label of a kind to the next, if nothing in between resets the kind. -/
theorem C13_next (resets : Dict Str (List Str)) (evs mid : List Str) (k : Str) (hself : ¬ Resets resets k k)
    (hk : k ∉ mid) (hres : ∀ e ∈ mid, ¬ Resets resets e k) :
    number resets (evs ++ [k] ++ mid ++ [k]) k = number resets (evs ++ [k]) k + 1 := by
  rw [number_snoc, if_neg hself, if_pos rfl]
  congr 1
  generalize evs ++ [k] = pre
  induction mid using List.reverseRecOn with
  | nil => simp
  | append_singleton mid e ih =>
    rw [← List.append_assoc, number_snoc, if_neg (hres e (by simp)), if_neg (by rintro rfl; simp at hk)]
    exact ih (by simp at hk; exact hk.1) (fun x hx => hres x (by simp [hx]))

/-- C13. Numbers restart at one after a label of a kind configured to reset them. -/
theorem C13_restart (resets : Dict Str (List Str)) (evs mid : List Str) (e k : Str) (hself : ¬ Resets resets k k)
    (he : Resets resets e k) (hk : k ∉ mid) :
    number resets (evs ++ [e] ++ mid ++ [k]) k = 1 := by
  rw [number_snoc, if_neg hself, if_pos rfl]
  have : ∀ mid : List Str, k ∉ mid → number resets (evs ++ [e] ++ mid) k = 0 := by
    intro mid
    induction mid using List.reverseRecOn with
    | nil => intro _; rw [List.append_nil, number_snoc, if_pos he]
    | append_singleton mid x ih =>
      intro hk
      rw [← List.append_assoc, number_snoc]
      split
      · rfl
      · simp at hk
        rw [ih hk.1, if_neg (Ne.symm hk.2)]
  rw [this mid hk]

/-- In the default table no kind resets itself, and chapters reset sections and figures. -/
example : (∀ k ∈ defaultResets.keys, ¬ Resets defaultResets k k) ∧
    Resets defaultResets "chapter".toList "section".toList ∧ Resets defaultResets "chapter".toList "figure".toList ∧
    ¬ Resets defaultResets "part".toList "figure".toList := by decide

/-! ### C14 -/

theorem isHeading_given {l l' : Label} (h : given l = given l') (r : Rank) : IsHeading l r ↔ IsHeading l' r := by
  have h1 : l.content = l'.content := congrArg Given.content h
  have h2 : l.kind = l'.kind := congrArg Given.kind h
  simp [IsHeading, h1, h2]

theorem encloses_given {ls ls' : List Label} (h : ls.map given = ls'.map given) (r : Rank) (u : Nat)
    (he : Encloses ls r u) : Encloses ls' r u := by
  obtain ⟨a, x, b, rfl, hu, hx, hb⟩ := he
  simp only [List.map_append, List.map_cons] at h
  obtain ⟨a', t, rfl, ha, ht⟩ := List.append_eq_map_iff.1 h
  obtain ⟨x', b', rfl, hx', hb'⟩ := List.map_eq_cons_iff.1 ht
  refine ⟨a', x', b', rfl, ?_, (isHeading_given hx' r).2 hx, ?_⟩
  · rw [← hu]; exact congrArg Given.uid hx'
  · intro y hy q hq
    have : given y ∈ b.map given := by rw [← hb']; exact List.mem_map_of_mem hy
    obtain ⟨z, hz, he⟩ := List.mem_map.1 this
    exact hb z hz q ((isHeading_given he q).2 hq)

/-- What registration does to the links of a label. -/
theorem register_links {sep : Str} {m : Manager} (h : Reachable sep m) (env : Env) (hr : m.registered = false)
    (pre : List Label) (l : Label) (post : List Label) (hv : (m.register env).values = pre ++ l :: post)
    (hc : l.content = true) :
    ∃ l0 ∈ m.values, given l0 = given l ∧ ∀ r,
      (∀ u, Encloses (pre ++ [l]) r u → l.links r = some u) ∧
      ((∀ u, ¬ Encloses (pre ++ [l]) r u) → l.links r = l0.links r) := by
  unfold Manager.values at hv
  rw [(register_labels h.inv env hr).1, registerLabels] at hv
  generalize hR : reorder env.docIds (m.labels.map Prod.snd) = R at hv
  have hRmem : ∀ x ∈ R, x ∈ m.values := by
    intro x hx
    rw [← hR, reorder_eq] at hx
    exact ((byDocument_mem _ _ _).1 hx).1
  generalize hS : setOrders env.resets (fun _ => 0) R = S at hv
  have hSR : S.map given = R.map given := by rw [← hS, setOrders_given]
  have hSl : S.map Label.links = R.map Label.links := by rw [← hS, setOrders_links]
  have hgiv : (pre ++ l :: post).map given = S.map given := by rw [← hv, setLinks_given]
  have hlen : pre.length < S.length := by
    have := congrArg List.length hgiv
    simp at this; omega
  have hsplit : S = S.take pre.length ++ S[pre.length] :: S.drop (pre.length + 1) := by
    rw [List.getElem_cons_drop]; simp
  have hl0 : given S[pre.length] = given l := by
    have : (S.map given)[pre.length]? = some (given l) := by rw [← hgiv]; simp
    rw [List.getElem?_map, List.getElem?_eq_getElem hlen] at this
    simpa using this
  have hpre : (S.take pre.length ++ [S[pre.length]]).map given = (pre ++ [l]).map given := by
    rw [List.map_append, List.map_append, List.map_take, ← hgiv]; simp [hl0]
  have hlenR : pre.length < R.length := by
    have := congrArg List.length hSR
    simp at this; omega
  obtain ⟨l', h1, h2⟩ := setLinks_spec S (fun _ => none) []
    (by
      intro r u
      simp only [reduceCtorEq, false_iff]
      rintro ⟨a, x, b, hab, _⟩
      simp at hab)
    (S.take pre.length) S[pre.length] (S.drop (pre.length + 1)) hsplit
  have e2 : (S.take pre.length).length = pre.length := by simp; omega
  rw [e2, hv] at h1
  simp at h1
  subst h1
  have hc0 : S[pre.length].content = true := by rw [← hc]; exact congrArg Given.content hl0
  rw [hc0] at h2
  simp only [if_true, List.nil_append] at h2
  have hlinks : S[pre.length].links = R[pre.length].links := by
    have : (S.map Label.links)[pre.length]? = (R.map Label.links)[pre.length]? := by rw [hSl]
    rw [List.getElem?_map, List.getElem?_map, List.getElem?_eq_getElem hlen, List.getElem?_eq_getElem hlenR] at this
    simpa using this
  have hgR : given R[pre.length] = given l := by
    have : (R.map given)[pre.length]? = some (given l) := by rw [← hSR, ← hgiv]; simp
    rw [List.getElem?_map, List.getElem?_eq_getElem hlenR] at this
    simpa using this
  refine ⟨R[pre.length], hRmem _ (List.getElem_mem _), hgR, fun r => ⟨?_, ?_⟩⟩
  · intro u hu
    exact (h2 r).1 u (encloses_given hpre.symm r u hu)
  · intro hu
    rw [← hlinks]
    exact (h2 r).2 (fun u hu' => hu u (encloses_given hpre r u hu'))

/-- C14. After a registration every content label is linked to the headings that enclose it. -/
theorem C14_enclosing (sep : Str) (m : Manager) (h : Reachable sep m) (env : Env) (hr : m.registered = false)
    (pre : List Label) (l : Label) (post : List Label) (hv : (m.register env).values = pre ++ l :: post)
    (hc : l.content = true) (r : Rank) (u : Nat) (he : Encloses (pre ++ [l]) r u) : l.links r = some u := by
  obtain ⟨_, _, _, h2⟩ := register_links h env hr pre l post hv hc
  exact (h2 r).1 u he

/-- C14, in part. A label that had no link of a rank before the registration is linked, at this rank, to nothing but
the heading that encloses it. Missing: labels that had a link before; see `C14_stale_link`. -/
theorem C14_only_enclosing_partial (sep : Str) (m : Manager) (h : Reachable sep m) (env : Env)
    (hr : m.registered = false)
    (pre : List Label) (l : Label) (post : List Label) (hv : (m.register env).values = pre ++ l :: post)
    (hc : l.content = true) (r : Rank) (hnew : ∀ l0 ∈ m.values, l0.uid = l.uid → l0.links r = none) (u : Nat)
    (hl : l.links r = some u) : Encloses (pre ++ [l]) r u := by
  obtain ⟨l0, h0, hg, h2⟩ := register_links h env hr pre l post hv hc
  by_cases hex : ∃ u', Encloses (pre ++ [l]) r u'
  · obtain ⟨u', hu'⟩ := hex
    have := (h2 r).1 u' hu'
    rw [hl] at this
    simp at this; subst this
    exact hu'
  · have := (h2 r).2 (fun u hu => hex ⟨u, hu⟩)
    rw [hl, hnew l0 h0 (congrArg Given.uid hg)] at this
    simp at this

/-- C14. In particular at the first registration of a project all links are exactly the enclosing headings. -/
theorem C14_first_registration (sep : Str) (ops : List Op) (hops : ∀ op ∈ ops, ∀ env, op ≠ .register env) (env : Env)
    (pre : List Label) (l : Label) (post : List Label)
    (hv : ((Manager.init.run sep ops).register env).values = pre ++ l :: post)
    (hc : l.content = true) (r : Rank) (u : Nat) :
    l.links r = some u ↔ Encloses (pre ++ [l]) r u := by
  have hreach : Reachable sep (Manager.init.run sep ops) := ⟨ops, rfl⟩
  have hnew : ∀ ops (m : Manager), (m.registered = false ∧ ∀ l ∈ m.values, l.links = fun _ => none) →
      (∀ op ∈ ops, ∀ env, op ≠ Op.register env) →
      ((m.run sep ops).registered = false ∧ ∀ l ∈ (m.run sep ops).values, l.links = fun _ => none) := by
    intro ops
    induction ops with
    | nil => intro m h _; exact h
    | cons op ops ih =>
      intro m hm hops
      apply ih (m.step sep op) _ (fun o ho => hops o (by simp [ho]))
      cases op with
      | register env => exact absurd rfl (hops _ (by simp) env)
      | reset ids =>
        cases ids with
        | none => exact ⟨rfl, by simp [Manager.step, Manager.reset, Manager.values]⟩
        | some ids =>
          refine ⟨rfl, ?_⟩
          intro l hl
          simp only [Manager.step, Manager.reset, Manager.values, List.mem_map] at hl
          obtain ⟨kl, h1, rfl⟩ := hl
          exact hm.2 _ (List.mem_map_of_mem (List.mem_filter.1 h1).1)
      | add id kind doc content title =>
        simp only [Manager.step, Manager.addLabel]
        split
        · exact ⟨rfl, hm.2⟩
        · rename_i hno
          refine ⟨rfl, ?_⟩
          intro l hl
          simp only [Manager.values] at hl
          rw [Dict.set_new _ _ _ (by rw [← Dict.has_iff]; exact hno)] at hl
          simp at hl
          rcases hl with hl | rfl
          · exact hm.2 l (by simpa [Manager.values] using hl)
          · rfl
  have hn := hnew ops Manager.init ⟨rfl, by simp [Manager.init, Manager.values]⟩ hops
  constructor
  · exact C14_only_enclosing_partial sep _ hreach env hn.1 pre l post hv hc r
      (fun l0 h0 _ => by rw [hn.2 l0 h0]) u
  · exact C14_enclosing sep _ hreach env hn.1 pre l post hv hc r u

/-- The hypotheses hold for the sample, which has labels with and without enclosing chapter. -/
example : (∀ op ∈ sampleOps, ∀ env, op ≠ .register env) ∧
    (((Manager.init.run sep sampleOps).register env).values.map fun l => (l.id, l.content, l.links .chapter)) =
      [("ch1".toList, true, some 1), ("ch2".toList, true, some 3), ("f1".toList, true, some 3),
       ("s1".toList, true, some 3)] := by
  constructor
  · intro op h env
    simp [sampleOps] at h
    rcases h with rfl | rfl | rfl | rfl | rfl <;> simp
  · decide

/-- Finding: C14 is false when a project changes. Document `b` gets a new part; the section in document `c` is no
longer in the chapter of document `a`, since a part starts in between, but it keeps the link to that chapter
(setting the link to `None` is ignored, `utils/classes.py:137-142`) and so its number becomes `1.2.1`. -/
theorem C14_stale_link :
    let m := (Manager.init.run sep sampleOps).register env
    let m' := m.run sep [.reset (some ["b".toList]), .add "p1".toList (heading "part") "b".toList true [], .register env]
    (m'.values.map fun l => (l.id, l.uid)) =
      [("ch1".toList, 1), ("ch2".toList, 3), ("p1".toList, 5), ("s1".toList, 0)] ∧
    (m'.values.map fun l => (l.links .part, l.links .chapter)) =
      [(none, some 1), (none, some 3), (some 5, none), (some 5, some 3)] ∧
    (m'.values.map fun l => m'.treeNumber l) = [[1], [2], [1], [1, 2, 1]] := by decide

/-- C14. The hierarchical number of a label consists of the numbers of the labels it is linked to, part to
subsubsection; with `C14_first_registration`, of the headings that enclose it. -/
theorem C14_tree_number (sep : Str) (m : Manager) (h : Reachable sep m) (env : Env) (l : Label) (n : Rank → Option Nat)
    (hn : ∀ r, (∀ u, l.links r = some u → ∃ h ∈ (m.register env).values, h.uid = u ∧ labelNumber h = n r) ∧
      (l.links r = none → n r = none)) :
    (m.register env).treeNumber l =
      ([n .part, n .chapter, n .section, n .subsection, n .subsubsection].filterMap id).filter (· ≠ 0) := by
  have hd : ∀ r, ((m.register env).deref (l.links r)).bind labelNumber = n r := by
    intro r
    cases hl : l.links r with
    | none => simp [Manager.deref, (hn r).2 hl]
    | some u =>
      obtain ⟨x, hx, hu, hnum⟩ := (hn r).1 u hl
      simp only [Manager.deref, Option.bind_some]
      cases hf : (m.register env).values.find? (fun l => l.uid = u) with
      | none =>
        rw [List.find?_eq_none] at hf
        have := hf x hx
        simp [hu] at this
      | some y =>
        have hy := List.mem_of_find?_eq_some hf
        have huy := List.find?_some hf
        simp at huy
        have : x = y := by
          have huids : ((m.register env).values.map Label.uid).Nodup := by
            unfold Manager.values
            rw [List.map_map]; exact (h.inv.register env).uids
          exact List.inj_on_of_nodup_map huids hx hy (by rw [hu, huy])
        subst this
        unfold Manager.values at hf
        rw [hf]; exact hnum
  simp only [Manager.treeNumber, hd]
  have : ∀ rs : List Rank, (rs.filterMap fun r => (n r).filter (fun x => decide (x ≠ 0))) =
      ((rs.map n).filterMap id).filter (fun x => decide (x ≠ 0)) := by
    intro rs
    induction rs with
    | nil => rfl
    | cons r rs ih =>
      cases hr : n r with
      | none => simpa [hr] using ih
      | some x => by_cases hx : x = 0 <;> simpa [hr, hx, Option.filter] using ih
  exact this [.part, .chapter, .section, .subsection, .subsubsection]

/-! ### C15 -/

/-- C15. A reset of documents takes away the labels of those documents and nothing else. -/
theorem C15_reset (sep : Str) (m : Manager) (h : Reachable sep m) (ids : List Str) :
    (m.reset (some ids)).values = m.values.filter fun l => l.docId ∉ ids := by
  simp only [Manager.reset, Manager.values]
  have : ∀ d : Dict Key Label, (∀ k l, (k, l) ∈ d → k = (l.docId, l.id)) →
      (d.filter fun kl => decide (kl.1.1 ∉ ids)).map Prod.snd =
        (d.map Prod.snd).filter fun l => decide (l.docId ∉ ids) := by
    intro d hd
    induction d with
    | nil => rfl
    | cons kl d ih =>
      obtain ⟨k, l⟩ := kl
      have hk := hd k l (by simp)
      have ih := ih (fun k l h => hd k l (by simp [h]))
      simp only [List.filter_cons, List.map_cons]
      subst hk
      by_cases hm : l.docId ∈ ids
      · simpa [hm] using ih
      · simpa [hm] using ih
  exact this _ h.inv.key

/-- C15. A reset of all takes away all labels. -/
theorem C15_reset_all (m : Manager) : (m.reset none).values = [] := rfl

/-- C15. After a reset of a document, its identifiers can be added again. -/
theorem C15_add_again (sep : Str) (m : Manager) (h : Reachable sep m) (ids : List Str) (id : Str)
    (kind : Option (List Str)) (doc : Str) (content : Bool) (title : Str) (hid : (parseId sep id).1 = none)
    (hdoc : doc ∈ ids) : ((m.reset (some ids)).addLabel sep id kind doc content title).2.isSome := by
  have hr : Reachable sep (m.reset (some ids)) := h.step (.reset (some ids))
  have := C10_add sep _ hr id kind doc content title
  simp only [hid, Option.getD_none] at this
  obtain ⟨l, h1, _⟩ := this.2 (by
    rintro ⟨l, hl, hd, _⟩
    rw [C15_reset sep m h, List.mem_filter] at hl
    simp [hd, hdoc] at hl)
  rw [h1]; rfl

theorem mapM_option {α β : Type} (f : α → Option β) (l : List α) (r : List β) : l.mapM f = some r ↔ l.map f = r.map some := by
  induction l generalizing r with
  | nil => cases r <;> simp
  | cons a l ih =>
    rw [List.mapM_cons]
    cases ha : f a with
    | none => cases r <;> simp [ha]
    | some b =>
      cases hl : l.mapM f with
      | none =>
        cases r with
        | nil => simp
        | cons c r =>
          have : ¬ l.map f = r.map some := fun e => by rw [(ih r).2 e] at hl; cases hl
          simp [ha, this]
      | some m =>
        have hm := (ih m).1 hl
        cases r with
        | nil => simp
        | cons c r =>
          simp only [Option.bind_eq_bind, Option.bind_some, Option.pure_def, Option.some.injEq, List.cons.injEq, List.map_cons, ha]
          rw [hm]
          constructor
          · rintro ⟨rfl, rfl⟩; exact ⟨rfl, rfl⟩
          · rintro ⟨h1, h2⟩
            exact ⟨h1, List.map_injective_iff.2 (fun _ _ => Option.some.inj) h2⟩

/-- C11. Looking up several identifiers gives the label of each one, in the order of the identifiers, and fails if one of
them is not found. -/
theorem C11_by_ids (m : Manager) (env : Env) (sep : Str) (ids : List Str) :
    (∀ ls, (m.getLabelsById env sep ids).2 = some ls ↔ ids.map (fun id => (m.getLabel env sep id).2) = ls.map some) ∧
    ((m.getLabelsById env sep ids).2 = none ↔ ∃ id ∈ ids, (m.getLabel env sep id).2 = none) := by
  have hg : ∀ id, ((m.register env).getLabel env sep id).2 = (m.getLabel env sep id).2 := by
    intro id
    simp only [Manager.getLabel, (C12_registered_once m env env).2]
  have hm : (m.getLabelsById env sep ids).2 = ids.mapM fun id => (m.getLabel env sep id).2 := by
    simp only [Manager.getLabelsById, hg]
  refine ⟨fun ls => by rw [hm, mapM_option], ?_⟩
  rw [hm]
  constructor
  · intro h
    by_cases hall : ∃ id ∈ ids, (m.getLabel env sep id).2 = none
    · exact hall
    · exfalso
      have : ∃ ls : List Label, ids.map (fun id => (m.getLabel env sep id).2) = ls.map some := by
        clear h hm
        induction ids with
        | nil => exact ⟨[], rfl⟩
        | cons id ids ih =>
          obtain ⟨ls, hls⟩ := ih (fun ⟨x, hx, e⟩ => hall ⟨x, by simp [hx], e⟩)
          cases hid : (m.getLabel env sep id).2 with
          | none => exact absurd ⟨id, by simp, hid⟩ hall
          | some l => exact ⟨l :: ls, by simp [hid, hls]⟩
      obtain ⟨ls, hls⟩ := this
      rw [(mapM_option _ _ ls).2 hls] at h
      cases h
  · rintro ⟨id, hid, e⟩
    cases h : ids.mapM fun id => (m.getLabel env sep id).2 with
    | none => rfl
    | some ls =>
      have := (mapM_option _ _ _).1 h
      have hmem : (none : Option Label) ∈ ids.map (fun id => (m.getLabel env sep id).2) := List.mem_map.2 ⟨id, hid, e⟩
      rw [this] at hmem
      simp at hmem

/-- C15. The next lookup sees the reset: whatever is found belongs to another document. -/
theorem C15_not_found (sep : Str) (m : Manager) (h : Reachable sep m) (ids : List Str) (env : Env) (id : Str) (l : Label)
    (hl : ((m.reset (some ids)).getLabel env sep id).2 = some l) : l.docId ∉ ids := by
  have hr : Reachable sep (m.reset (some ids)) := h.step (.reset (some ids))
  have hmem : l ∈ ((m.reset (some ids)).register env).values := by
    rcases hid : parseId sep id with ⟨d, lid⟩
    cases d with
    | some d => exact ((C11_with_document sep _ hr env id d lid hid l).1 hl).1
    | none =>
      obtain ⟨a, b, h1, _⟩ := (C11_without_document sep _ hr env id lid hid l).1 hl
      rw [h1]; simp
  have hg := List.mem_map_of_mem (f := given) hmem
  rw [C12_order sep _ hr env rfl, List.mem_map] at hg
  obtain ⟨l', h1, h2⟩ := hg
  rw [byDocument_mem, C15_reset sep m h, List.mem_filter] at h1
  have : l'.docId = l.docId := congrArg Given.docId h2
  rw [← this]
  simpa using h1.1.2

example : let m := (Manager.init.run sep sampleOps).register env
    ((m.reset (some ["a".toList])).register env).values.map (fun l => (l.id, l.order)) =
      [("f1".toList, some [1]), ("s1".toList, some [1, 1])] := by decide

/-! ### Lookups by kind -/

/-- C13. The labels of one kind come in document order. -/
theorem C13_by_kind (m : Manager) (env : Env) (doc : Option Str) (k : Str)
    (hk : ∀ l ∈ (m.register env).values, l.kind ≠ none) :
    (m.getLabelsByKind env doc [k]).2 =
      some ((m.register env).values.filter fun l => (∀ d, doc = some d → l.docId = d) ∧ k ∈ l.kind.getD []) := by
  have hany : ∀ ls : List Label, (∀ l ∈ ls, l ∈ (m.register env).values) → ls.any (fun l => l.kind.isNone) = false := by
    intro ls h
    rw [List.any_eq_false]
    intro l hl
    have := hk l (h l hl)
    simpa using this
  cases doc with
  | none =>
    simp only [Manager.getLabelsByKind, Manager.values] at *
    rw [if_neg (by simp), hany _ (fun l h => h)]
    simp
  | some d =>
    simp only [Manager.getLabelsByKind, Manager.values] at *
    rw [if_neg (by simp), hany _ (fun l h => (List.mem_filter.1 h).1)]
    simp [List.filter_filter, Bool.and_comm]

/-- Finding: a label with two of the kinds that are asked for is listed twice. -/
theorem C13_by_kinds_lists_twice :
    (((Manager.init.run sep sampleOps).getLabelsByKind env (some "c".toList) ["heading".toList, "section".toList]).2.map
      fun ls => ls.map Label.id) = some ["s1".toList, "s1".toList] := by decide

/-- Finding: a lookup by kind fails with a `TypeError` as soon as one label has no kind. -/
theorem C13_by_kind_raises :
    ((Manager.init.addLabel sep "x".toList none "a".toList false []).1.getLabelsByKind env none ["figure".toList]).2 = none :=
  rfl

end Verif.Labels
