import Verif.Lemmas.Server

/-!
# C71: the preview server
-/

namespace Verif.Server

open Verif Verif.Paths

variable {R : Type} {dec : Str → Str}

/-- C71. Each path is answered by one handler: the pages of the server, its own files for `/media/…`, the source files, and the files
of the current directory for all other paths. -/
theorem C71_route (path : Str) (h : Handler) : route path = h ↔ Handled path h :=
  ⟨fun e => e ▸ route_handled path, handled_route path h⟩

/-- C71. After any requests, a request for the tree, for an html, epub or tex file builds all root documents, once each and in order,
before it is answered, if they can be built. The root documents are those found by the first search that succeeded, which may be that
of this request. The page of the tree has the entries of the documents as they are after the build. -/
theorem C71_built (pre : List (World R × Str)) (w : World R) (path : Str) (rs : List R) (ds : List Doc) (hl : Loads path)
    (hp : Projects (pre ++ [(w, path)]) rs) (hb : rs.map w.built = ds.map .ok) :
    ∃ a evs, serve dec (pre ++ [(w, path)]) none = serve dec pre none ++ [(a, evs)] ∧
      (NoProjects pre → evs = .searched :: rs.map .built) ∧ (Projects pre rs → evs = rs.map .built) ∧
      (∀ l, path = "/".toList → entries 1 1 ds = .ok l → a = .tree l) ∧
      (∀ r, Handled path (.static .here r true) → a = .static .here (dec r)) ∧
      (∀ r, Handled path (.source r true) → a = highlight w (dec r)) := by
  refine ⟨_, _, serve_append pre w path none, ?_⟩
  have key : ∀ s, s = final dec pre none → (s = none ∧ w.found = .ok rs ∨ s = some rs) →
      ∃ st evs, loadProjects w s = (.ok ds, st, evs) ∧ evs = (if s = none then [.searched] else []) ++ rs.map .built := by
    rintro s - (⟨rfl, h⟩ | rfl)
    · exact ⟨some rs, .searched :: rs.map .built, by rw [loadProjects, h]; simp only [buildAll_ok w rs ds hb], rfl⟩
    · exact ⟨some rs, rs.map .built, by rw [loadProjects]; simp only [buildAll_ok w rs ds hb], rfl⟩
  have hs : final dec pre none = none ∧ w.found = .ok rs ∨ final dec pre none = some rs := by
    have h1 := final_projects (dec := dec) _ _ hp
    rw [final_append, request_store, if_pos ((loads_iff path).mp hl)] at h1
    cases hf : final dec pre none with
    | some x => rw [hf] at h1; exact .inr h1
    | none =>
      rw [hf] at h1
      refine .inl ⟨rfl, ?_⟩
      rw [stored] at h1
      cases hw : w.found with
      | error => rw [hw] at h1; cases h1
      | ok x => rw [hw] at h1; cases h1; rfl
  obtain ⟨st, evs, h1, h2⟩ := key _ rfl hs
  have hev : (request dec w path (final dec pre none)).2.2 = evs ∧
      (∀ l, path = "/".toList → entries 1 1 ds = .ok l → (request dec w path (final dec pre none)).1 = .tree l) ∧
      (∀ r, Handled path (.static .here r true) → (request dec w path (final dec pre none)).1 = .static .here (dec r)) ∧
      (∀ r, Handled path (.source r true) → (request dec w path (final dec pre none)).1 = highlight w (dec r)) := by
    have hld := (loads_iff path).mp hl
    refine ⟨?_, ?_, ?_, ?_⟩
    · unfold request
      cases hr : route path with
      | tree =>
        simp only [h1]
        cases entries 1 1 ds <;> rfl
      | static dir r b =>
        rw [hr] at hld
        have : b = true := hld
        subst this
        simp only [load, if_true, h1]
      | source r b =>
        rw [hr] at hld
        have : b = true := hld
        subst this
        simp only [load, if_true, h1]
      | checkers => rw [hr] at hld; cases hld
      | signals => rw [hr] at hld; cases hld
      | default => rw [hr] at hld; cases hld
    · intro l hpath hent
      unfold request
      rw [handled_route path .tree (hpath ▸ .tree)]
      simp only [h1, hent]
    · intro r hr
      unfold request
      rw [handled_route path _ hr]
      simp only [load, if_true, h1]
    · intro r hr
      unfold request
      rw [handled_route path _ hr]
      simp only [load, if_true, h1]
  refine ⟨fun h => ?_, fun h => ?_, hev.2⟩
  · rw [hev.1, h2, final_none pre h]; rfl
  · rw [hev.1, h2, final_projects pre rs h]; rfl

/-- C71. If a root document cannot be built, or the projects cannot be loaded, such a request is answered by an error page. -/
theorem C71_failed (pre : List (World R × Str)) (w : World R) (path : Str) (hl : Loads path)
    (h : (∃ rs, Projects (pre ++ [(w, path)]) rs ∧ ∃ r ∈ rs, ∃ e, w.built r = .error e) ∨ NoProjects (pre ++ [(w, path)])) :
    ∃ evs, serve dec (pre ++ [(w, path)]) none = serve dec pre none ++ [(.error, evs)] := by
  rw [serve_append]
  have key : ∃ e, (loadProjects w (final dec pre none)).1 = .error e := by
    rcases h with ⟨rs, h1, h2⟩ | h1
    · have h3 := final_projects (dec := dec) _ _ h1
      rw [final_append, request_store, if_pos ((loads_iff path).mp hl)] at h3
      obtain ⟨e, he⟩ := buildAll_error w rs h2
      refine ⟨e, ?_⟩
      cases hf : final dec pre none with
      | some x =>
        rw [hf] at h3
        cases h3
        rw [loadProjects]
        exact he
      | none =>
        rw [hf, stored] at h3
        rw [loadProjects]
        cases hw : w.found with
        | error => rw [hw] at h3; cases h3
        | ok x =>
          rw [hw] at h3; cases h3
          exact he
    · have h3 : final dec pre none = none := final_none pre fun q hq => h1 q (by simp [hq])
      obtain ⟨e, he⟩ := h1 (w, path) (by simp) hl
      simp only at he
      refine ⟨e, ?_⟩
      rw [h3, loadProjects, he]
  obtain ⟨e, he⟩ := key
  refine ⟨(request dec w path (final dec pre none)).2.2, ?_⟩
  have : (request dec w path (final dec pre none)).1 = .error := by
    have hld := (loads_iff path).mp hl
    generalize final dec pre none = s at he
    unfold request
    generalize hx : loadProjects w s = x at he
    obtain ⟨x1, x2, x3⟩ := x
    simp only at he
    subst he
    cases hr : route path with
    | tree => rfl
    | static dir r b =>
      rw [hr] at hld
      have : b = true := hld
      subst this
      simp only [load, if_true, hx]
    | source r b =>
      rw [hr] at hld
      have : b = true := hld
      subst this
      simp only [load, if_true, hx]
    | checkers => rw [hr] at hld; cases hld
    | signals => rw [hr] at hld; cases hld
    | default => rfl
  rw [this]

/-- C71. All other requests build nothing and search for nothing. -/
theorem C71_not_built (pre : List (World R × Str)) (w : World R) (path : Str) (hl : ¬ Loads path) :
    ∃ a, serve dec (pre ++ [(w, path)]) none = serve dec pre none ++ [(a, [])] := by
  refine ⟨(request dec w path (final dec pre none)).1, ?_⟩
  rw [serve_append, request_not w path _ (by rw [Bool.eq_false_iff]; exact fun h => hl ((loads_iff path).mpr h))]

/-- Refutation: a request for a pdf or text file of a project does not build it, so that the file may be old or not there. -/
theorem C71_pdf_not_built (s : Str) (e : Str) (he : e = ".pdf".toList ∨ e = ".txt".toList) : ¬ Loads ('/' :: (s ++ e)) := by
  rintro (h | ⟨t, f, hf, h, -⟩)
  · have := (List.cons.inj h).2
    rcases he with rfl | rfl <;> simp at this
  · have h := (List.cons.inj h).2
    simp only [List.mem_cons, List.not_mem_nil, or_false] at hf
    rcases he with rfl | rfl <;> rcases hf with rfl | rfl | rfl <;>
    exact ends_ne (by decide) (by decide) (by decide) h

/-- C71. The tree has an entry for each document and no other, at the same position, with its level, number, title, source, date and
links; and it can be shown if all documents are ready. -/
theorem C71_tree (ds : List Doc) (hr : ∀ pos d, nodeAt Doc.subs ds pos = some d → Ready d) :
    ∃ l, entries 1 1 ds = .ok l ∧ ∀ pos,
      (nodeAt Doc.subs ds pos = none ∧ nodeAt Entry.subs l pos = none) ∨
      ∃ d e, nodeAt Doc.subs ds pos = some d ∧ nodeAt Entry.subs l pos = some e ∧ Shows pos d e := by
  obtain ⟨l, hl⟩ := entries_ok ds (fun d hd => ready_sub hr hd) 1 1
  refine ⟨l, hl, fun pos => ?_⟩
  rcases entries_at pos 1 (by omega) ds l hl with h | ⟨d, e, h1, h2, h3⟩
  · exact .inl h
  · refine .inr ⟨d, e, h1, h2, ?_⟩
    have e1 : 1 + pos.length - 1 = pos.length := by omega
    rw [e1] at h3
    obtain ⟨a1, a2, a3, a4, a5, a6, -⟩ := entry_inv _ _ _ _ h3
    have hrd := hr pos d h1
    rw [links_ok d.builders hrd.nodup hrd.ext] at a6
    refine ⟨a1, a2, a3, a4, a5, fun t p => ?_⟩
    cases a6' : e.targets with
    | _ =>
      rw [← a6', ← Except.ok.inj a6, List.mem_map]
      constructor
      · rintro ⟨⟨t', b⟩, hb, h⟩
        cases h
        exact ⟨b, hb, rfl⟩
      · rintro ⟨b, hb, rfl⟩
        exact ⟨(t, b), hb, rfl⟩

/-- C71. A document without its source file, at any place, makes the tree impossible to show. -/
theorem C71_tree_missing (ds : List Doc) (pos : List Nat) (d : Doc) (h : nodeAt Doc.subs ds pos = some d) (hm : d.mtime = none) :
    ∀ l, entries 1 1 ds ≠ .ok l := by
  intro l hl
  rcases entries_at pos 1 (by omega) ds l hl with ⟨h1, -⟩ | ⟨d', e, h1, -, h3⟩
  · rw [h] at h1; cases h1
  · rw [h] at h1
    cases h1
    have := (entry_inv _ _ _ _ h3).2.2.2.2.1
    rw [hm] at this; cases this

/-- C71. The list of checkers has an entry for each dependency and no other, at the same position, with its level, name and status. -/
theorem C71_checkers (ds : List Checkers.Dep) (pos : List Nat) :
    (nodeAt parts ds pos = none ∧ nodeAt Check.subs (checks true 1 ds) pos = none) ∨
    ∃ d e, nodeAt parts ds pos = some d ∧ nodeAt Check.subs (checks true 1 ds) pos = some e ∧ ShowsDep ds pos d e := by
  rcases checks_at pos true 1 ds with h | ⟨d, h1, h2⟩
  · exact .inl h
  refine .inr ⟨d, _, h1, h2, ?_⟩
  have e1 : 1 + pos.length - 1 = pos.length := by omega
  rw [e1]
  have hreq : Required ds pos ↔ requiredAt true ds pos = true := by
    unfold Required requiredAt
    by_cases hl : pos.length = 1
    · rw [if_pos hl]; exact ⟨fun _ => rfl, fun _ => .inl hl⟩
    · rw [if_neg hl]
      constructor
      · rintro (h | ⟨c, l, h⟩)
        · exact absurd h hl
        · rw [h]; rfl
      · intro h
        right
        cases hn : nodeAt parts ds pos.dropLast with
        | none => rw [hn] at h; cases h
        | some x =>
          rw [hn] at h
          cases x with
          | prog => cases h
          | group k c l =>
            cases k with
            | all => exact ⟨c, l, rfl⟩
            | any => cases h
            | optional => cases h
  generalize requiredAt true ds pos = r at hreq
  cases d with
  | prog n a =>
    have hm : Checkers.Met (fun _ a => a = some true) (.prog n a) ↔ a = some true :=
      ⟨fun h => by cases h; assumption, fun h => .prog n a h⟩
    have hu : (∃ m, Checkers.Dep.prog n a = .prog m none) ↔ a = none :=
      ⟨fun ⟨m, h⟩ => by cases h; rfl, fun h => ⟨n, by rw [h]⟩⟩
    refine ⟨by rw [check]; rfl, by rw [check]; rfl, ?_, ?_, ?_, ?_⟩ <;> rw [check] <;>
      simp only [Check.status, hm, hu, hreq, statusOf] <;> rcases a with _ | _ | _ <;> cases r <;> decide
  | group k c l =>
    have hm := Checkers.available_iff (.group k c l)
    have hu : ¬ ∃ m, Checkers.Dep.group k c l = .prog m none := by rintro ⟨m, h⟩; cases h
    refine ⟨by rw [check]; rfl, by rw [check]; rfl, ?_, ?_, ?_, ?_⟩ <;> rw [check] <;>
      simp only [Check.status, ← hm, hu, hreq, statusOf] <;> cases Checkers.available (.group k c l) <;> cases r <;> decide

/-- C71. The list of signals has all signals in order, each with the receivers that are alive, by ascending orders. -/
theorem C71_signals (alive : Nat → Bool) (ns : Dict Str Signals.Sig) (i : Nat) (name : Str) (s : Signals.Sig) (h : ns[i]? = some (name, s))
    (hn : s.keys.Nodup) :
    (signalRows alive ns).length = ns.length ∧ ∃ l, (signalRows alive ns)[i]? = some (name, l) ∧
      l.Pairwise (fun a b => a.1 < b.1) ∧
      ∀ o x, (o, x) ∈ l ↔ ∃ r, (o, r) ∈ s ∧ r.id = x ∧ (r.weak = true → alive x = true) := by
  refine ⟨by simp [signalRows], receivers alive s, by simp [signalRows, h], ?_, ?_⟩
  · have hp := Starters.sortWith_pairwise (fun a b : Int × Nat => decide (a.1 ≤ b.1))
      (by intro a b c h1 h2; simp only [decide_eq_true_eq] at *; omega)
      (by intro a b; simp only [Bool.or_eq_true, decide_eq_true_eq]; omega)
      ((s.filter fun kv => !kv.2.weak || alive kv.2.id).map fun kv => (kv.1, kv.2.id))
    have hnd : (receivers alive s).Pairwise fun a b => a.1 ≠ b.1 := by
      have hk : (((s.filter fun kv => !kv.2.weak || alive kv.2.id).map fun kv => (kv.1, kv.2.id)).map (·.1)).Nodup := by
        rw [List.map_map]
        exact (List.filter_sublist.map _).nodup hn
      have := ((Starters.sortWith_perm (fun a b : Int × Nat => decide (a.1 ≤ b.1)) _).map (·.1)).nodup_iff.mpr hk
      rw [List.Nodup, List.pairwise_map] at this
      exact this
    refine List.Pairwise.imp₂ ?_ hp hnd
    intro a b h1 h2
    simp only [decide_eq_true_eq] at h1
    omega
  · intro o x
    unfold receivers
    rw [(Starters.sortWith_perm _ _).mem_iff, List.mem_map]
    constructor
    · rintro ⟨⟨o', r⟩, h1, h2⟩
      cases h2
      rw [List.mem_filter] at h1
      refine ⟨r, h1.1, rfl, fun hw => ?_⟩
      have := h1.2
      simp only [hw, Bool.not_true, Bool.false_or] at this
      exact this
    · rintro ⟨r, h1, rfl, h2⟩
      refine ⟨(o, r), List.mem_filter.mpr ⟨h1, ?_⟩, rfl⟩
      cases hw : r.weak with
      | false => simp
      | true => simp [h2 hw]

/-- Refutation of "only files of the current directory are shown": every file of the disk whose name ends in `.dm` is shown
by a request for its absolute path after a slash, if it can be read. -/
theorem C71_outside (w : World R) (s : Option (List R)) (names : List Str) (hn : ∀ n ∈ names, IsName n) (text t : Str)
    (ht : toStr ⟨true, names⟩ = t ++ ".dm".toList) (hd : dec (toStr ⟨true, names⟩) = toStr ⟨true, names⟩)
    (hr : w.read ⟨true, names⟩ = .ok text) (hx : w.lexer (toStr ⟨true, names⟩) = true) :
    (request dec w ('/' :: toStr ⟨true, names⟩) s).1 = .source text := by
  have hroute : Handled ('/' :: toStr ⟨true, names⟩) (.source (toStr ⟨true, names⟩) false) := by
    have ho : Own (toStr ⟨true, names⟩) := by
      have hh : (toStr ⟨true, names⟩).head? = some '/' := by
        unfold toStr; simp
      refine ⟨?_, ?_, ?_, ?_⟩
      · intro h; rw [h] at hh; cases hh
      · intro h; rw [h] at hh; exact absurd hh (by decide)
      · intro h; rw [h] at hh; exact absurd hh (by decide)
      · intro x h
        rw [h] at hh
        exact absurd (show some 'm' = some '/' from hh) (by decide)
    rw [ht] at ho ⊢
    exact .dm t ho
  unfold request
  rw [handled_route _ _ hroute]
  simp only [load, Bool.false_eq_true, if_false, highlight, hd]
  rw [if_pos hx, parse_toStr ⟨true, names⟩ hn, hr]

/-! ### Concrete cases -/

/-- A project with a chapter in an own file, for the checks. -/
def toyBuilders (n : String) : Targets.Builders :=
  [(".html".toList, ⟨".html".toList, false, ⟨⟨true, ["p".toList]⟩, ⟨false, ["html".toList]⟩, ⟨false, [n.toList]⟩⟩⟩)]

def toyDocs : List Doc :=
  [.mk "Book".toList ⟨⟨true, ["p".toList]⟩, ⟨false, ["b.dm".toList]⟩⟩ (toyBuilders "b.html") (some 7)
    [.mk "One".toList ⟨⟨true, ["p".toList]⟩, ⟨false, ["c.dm".toList]⟩⟩ (toyBuilders "c.html") (some 8) [],
     .mk "Two".toList ⟨⟨true, ["p".toList]⟩, ⟨false, ["d.dm".toList]⟩⟩ (toyBuilders "d.html") (some 9) []]]

/-- The documents are ready, and the last one has number 2 at level 2. -/
example : ((∀ pos d, nodeAt Doc.subs toyDocs pos = some d → Ready d) ∧
    ∃ d, nodeAt Doc.subs toyDocs [0, 1] = some d ∧ d.title = "Two".toList) ∧
    ((entries 1 1 toyDocs).toOption.bind fun l => (nodeAt Entry.subs l [0, 1]).map fun e => (e.level, e.number)) = some (2, 2) := by
  refine ⟨⟨?_, _, rfl, rfl⟩, by decide⟩
  have hb : ∀ n, suffix (⟨⟨true, ["p".toList]⟩, ⟨false, ["html".toList]⟩, ⟨false, [n]⟩⟩ : TargetPath).full = ".html".toList →
      ∀ t b, (t, b) ∈ ([(".html".toList, ⟨".html".toList, false, ⟨⟨true, ["p".toList]⟩, ⟨false, ["html".toList]⟩, ⟨false, [n]⟩⟩⟩)] :
        Targets.Builders) → t.head? = some '.' ∧ suffix b.out.full = t := by
    intro n hn t b h
    rw [List.mem_singleton] at h
    cases h
    exact ⟨by decide, hn⟩
  intro pos d h
  rcases pos with _ | ⟨i, pos⟩
  · cases h
  rcases i with _ | i
  · rcases pos with _ | ⟨j, pos⟩
    · cases h; exact ⟨by decide, by decide, hb _ (by decide)⟩
    · rcases j with _ | _ | j
      · rcases pos with _ | ⟨k, pos⟩
        · cases h; exact ⟨by decide, by decide, hb _ (by decide)⟩
        · cases h
      · rcases pos with _ | ⟨k, pos⟩
        · cases h; exact ⟨by decide, by decide, hb _ (by decide)⟩
        · cases h
      · cases h
  · cases h

/-- A world with two projects, for the checks. -/
def toyWorld (n : Nat) : World Nat :=
  ⟨.ok [0, n], fun _ => .ok (.mk [] ⟨⟨true, []⟩, ⟨false, []⟩⟩ [] (some n) []), fun _ => .ok "secret".toList, fun _ => true, [], fun _ => true, []⟩

/-- Later requests build the projects that the first one found, although others are there, and a request for a pdf file builds nothing. -/
example : (Loads "/a.html".toList ∧ Loads "/".toList ∧ ¬ Loads "/a.pdf".toList) ∧
    Projects [(toyWorld 1, "/a.html".toList), (toyWorld 2, "/".toList)] [0, 1] ∧
    (serve id [(toyWorld 1, "/a.html".toList), (toyWorld 2, "/".toList), (toyWorld 2, "/a.pdf".toList)] none).map (·.2) =
      [[.searched, .built 0, .built 1], [.built 0, .built 1], []] := by
  have h : Loads "/a.html".toList := (loads_iff _).mpr (by decide)
  refine ⟨⟨h, .inl rfl, fun h => absurd ((loads_iff _).mp h) (by decide)⟩, ?_, by decide⟩
  exact ⟨[], _, _, _, rfl, h, rfl, fun _ h => absurd h List.not_mem_nil⟩

/-- A file outside of the current directory. -/
example : IsName "home".toList ∧ (∃ t, toStr ⟨true, ["home".toList, "x.dm".toList]⟩ = t ++ ".dm".toList) ∧
    (request id (toyWorld 0) "//home/x.dm".toList none).1 = .source "secret".toList :=
  ⟨⟨by decide, by decide, by decide⟩, ⟨"/home/x".toList, by decide⟩, by rfl⟩

/-- Statuses of dependencies that are not there. -/
example : (checks true 1 [.group .all "a".toList [.prog "p".toList (some false), .group .optional "o".toList [.prog "q".toList (some false)]]]).map
    (fun c => (c.status, c.subs.map fun d => (d.status, d.subs.map Check.status))) =
      [(.fail, [(.fail, []), (.ok, [.missing])])] := by decide

end Verif.Server
