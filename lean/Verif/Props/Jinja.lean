import Verif.Lemmas.Jinja
import Verif.Props.CopyFile
import Verif.Props.Paths
import Verif.Model.Template

/-!
# C69: rendered files
-/

namespace Verif.Jinja

open Verif Verif.Decider
open Verif.CopyFile (Param World write)
open Verif.Paths (Path parse toStr Good IsName IsExt Splits)

variable {c : Cfg} {enc : Str → Bytes}

/-! ### The template -/

theorem stripDots_ext (x : Str) (h1 : x.head? ≠ some '.') (h2 : x.getLast? ≠ some '.') : Paths.stripDots ('.' :: x) = x := by
  have e : Paths.stripDots ('.' :: x) = Paths.stripDots x := by
    simp [Paths.stripDots, strip, lstrip]
  rw [e]
  exact Paths.stripDots_clean x h1 h2

/-- C69. The template of a document: for the entry `template` with the path `d/n` and the extension `.x`, it is the first that there
is of `d/n/x/template.x`, `d/s.x`, where `s` is `n` without an extension, and `d/n`. Without an entry it is that of `default`. -/
theorem C69_selected (ld : Loader) (ctx : Dict Str Value) (d : Path) (n st ex x : Str) (hd : Good d) (hn : IsName n)
    (hs : Splits n st ex) (hx : IsExt x)
    (hctx : ctx.get? "template".toList = some (.text (toStr ⟨d.abs, d.parts ++ [n]⟩)) ∨
      (ctx.get? "template".toList = none ∧ d = ⟨false, []⟩ ∧ n = "default".toList)) (t : Tpl) :
    template ld ctx ('.' :: x) = .ok t ↔ Chosen ld ((namesFor d n st x).map toStr) t := by
  have hname : parse (templateName ctx) = ⟨d.abs, d.parts ++ [n]⟩ := by
    unfold templateName
    rcases hctx with h | ⟨h, rfl, rfl⟩
    · rw [h]
      exact Paths.parse_toStr _ (Paths.good_child d n hd hn)
    · rw [h]
      decide
  have hxn : IsName x := ⟨hx.1, fun h => hx.2.1 (by rw [h]; exact List.mem_cons_self), hx.2.2⟩
  have hsx : Paths.stripDots ('.' :: x) = x := by
    refine stripDots_ext x (fun h => hx.2.1 ?_) fun h => hx.2.1 ?_
    · exact List.mem_of_head? h
    · exact List.mem_of_getLast? h
  have k1 : '/' ∉ '.' :: x := by simp [hx.2.2]
  have k3 : '.' :: x ≠ ['.'] := by simp [hx.1]
  have hp : parse "template".toList = ⟨false, ["template".toList]⟩ := by decide
  have hno : Paths.NoExt "template".toList := by
    intro a b h _
    have : '.' ∈ "template".toList := by rw [h]; simp
    exact absurd this (by decide)
  have e1 : Paths.withSuffix (Paths.div (Paths.div ⟨d.abs, d.parts ++ [n]⟩ (parse x)) (parse "template".toList)) ('.' :: x) =
      .ok ⟨d.abs, d.parts ++ [n, x, "template.".toList ++ x]⟩ := by
    rw [hp, Paths.parse_name x hxn]
    have := Paths.withSuffix_noext ⟨d.abs, d.parts ++ [n, x]⟩ "template".toList ('.' :: x) (by decide) hno k1 (.inr rfl) k3
    unfold Paths.child at this
    have hlit : "template.".toList ++ x = "template".toList ++ '.' :: x := rfl
    rw [hlit]
    simp only [Paths.div, Bool.false_eq_true, if_false]
    simp only [List.append_assoc, List.cons_append, List.nil_append] at this ⊢
    exact this
  have e2 : Paths.withSuffix ⟨d.abs, d.parts ++ [n]⟩ ('.' :: x) = .ok ⟨d.abs, d.parts ++ [st ++ '.' :: x]⟩ :=
    Paths.withSuffix_splits d n st ex ('.' :: x) hs k1 (.inr rfl) k3
  unfold template candidates
  rw [hname]
  simp only [hsx]
  rw [e1, e2]
  simp only
  rw [select_iff]
  rfl

/-- C69. The files of the templates are found if and only if every reference from a template can be loaded, none is computed, and no
chain of references is longer than the depth of recursion; they are then the files of the templates that are reached. -/
theorem C69_templates (ld : Loader) (d : Nat) (t : Tpl) :
    ((∃ files, templateFiles ld d t = .ok files) ↔ Static ld t ∧ Height ld t d) ∧
    ∀ files, templateFiles ld d t = .ok files → ∀ f, f ∈ files ↔ ∃ u, Reaches ld t u ∧ u.file = f :=
  ⟨files_iff d t, fun files h f => files_mem d t files h f⟩

/-- C69. Refutation: a template that includes itself, directly or through others, as Jinja allows, cannot be used, whatever the
depth of recursion is: the parameters, the status and the build end with an exception, and nothing is written. -/
theorem C69_cycle (e : Env) (w : World) (r : Renderer) (ctx : Dict Str Value) (t u : Tpl) (hctx : r.context = some ctx)
    (ht : template e.loader ctx r.ext = .ok t) (hu : Reaches e.loader t u) (h : Follows e.loader u u) :
    ∃ err, parameters e r = .error err ∧ status c enc e w r = .error err ∧ update c enc e w r = (.error err, w) := by
  have hn : ∃ err, parameters e r = .error err := by
    cases hp : parameters e r with
    | error err => exact ⟨err, rfl⟩
    | ok ps =>
      exfalso
      obtain ⟨t', files, _, h1, h2, _⟩ := parameters_inv e r ps ctx hctx hp
      rw [ht] at h1; cases h1
      obtain ⟨_, hh⟩ := (files_iff (ld := e.loader) e.depth t).1 ⟨files, h2⟩
      obtain ⟨k, _, hk⟩ := height_reaches hu _ hh
      exact height_cycle h k hk
  obtain ⟨err, he⟩ := hn
  refine ⟨err, he, status_error e w r err he, ?_⟩
  unfold update
  rw [status_error e w r err he]

/-- C69. What a renderer watches, each once: what it was given, the files of the template and of all templates it refers to, their
context files, what the scanner finds in these, and the hashes of the tags of the context. -/
theorem C69_parameters (e : Env) (r : Renderer) (ps : List Param) (ctx : Dict Str Value) (hctx : r.context = some ctx)
    (h : parameters e r = .ok ps) :
    ∃ t, template e.loader ctx r.ext = .ok t ∧ ps.Nodup ∧ ∀ x, x ∈ ps ↔ Watched e r.given ctx t x :=
  parameters_watched e r ps ctx hctx h

theorem sorted_eq (l l' : List Str) (hp : l.Perm l') :
    Starters.sortWith (fun a b => decide (a ≤ b)) l = Starters.sortWith (fun a b => decide (a ≤ b)) l' := by
  have hs : ∀ l : List Str, (Starters.sortWith (fun a b => decide (a ≤ b)) l).Pairwise fun a b => a ≤ b := by
    intro l
    have := Starters.sortWith_pairwise (fun a b : Str => decide (a ≤ b))
      (fun a b c h1 h2 => decide_eq_true (List.le_trans (of_decide_eq_true h1) (of_decide_eq_true h2)))
      (fun a b => by
        rw [Bool.or_eq_true]
        rcases List.le_total a b with h | h
        · exact .inl (decide_eq_true h)
        · exact .inr (decide_eq_true h)) l
    exact this.imp fun h => of_decide_eq_true h
  have hperm := ((Starters.sortWith_perm (fun a b => decide (a ≤ b)) l).trans hp).trans
    (Starters.sortWith_perm (fun a b => decide (a ≤ b)) l').symm
  exact hperm.eq_of_pairwise (fun a b _ _ h1 h2 => List.le_antisymm h1 h2) (hs l) (hs l')

theorem parameters_congr (e : Env) (r r' : Renderer) (ctx ctx' : Dict Str Value) (h1 : r.context = some ctx)
    (h2 : r'.context = some ctx') (h3 : r'.given = r.given) (h4 : r'.ext = r.ext) (h5 : templateName ctx' = templateName ctx)
    (h6 : hashes ctx' = hashes ctx) : parameters e r' = parameters e r := by
  unfold parameters template
  rw [h1, h2, h3, h4]
  simp only [h5, h6]

/-- C69. The order in which the entries were made does not matter: contexts with the same entries give the same parameters, in the
same order, so that the name of an output file that is made from them is the same. -/
theorem C69_order (e : Env) (r r' : Renderer) (ctx ctx' : Dict Str Value) (h1 : r.context = some ctx) (h2 : r'.context = some ctx')
    (h3 : r'.given = r.given) (h4 : r'.ext = r.ext) (hk : (ctx.map Prod.fst).Nodup) (hp : ctx'.Perm ctx) :
    parameters e r' = parameters e r := by
  refine parameters_congr e r r' ctx ctx' h1 h2 h3 h4 ?_ ?_
  · have : ctx'.get? "template".toList = ctx.get? "template".toList := by
      have hk' : ctx'.keys.Nodup := (hp.map Prod.fst).nodup_iff.2 hk
      cases h : ctx.get? "template".toList with
      | none =>
        rw [Dict.get?_eq_none_iff] at h ⊢
        intro hm
        exact h ((hp.map Prod.fst).mem_iff.1 hm)
      | some v => exact Dict.get?_of_mem ctx' hk' _ v (hp.mem_iff.2 (Dict.mem_of_get? ctx _ v h))
    unfold templateName
    rw [this]
  · exact sorted_eq _ _ (hp.filterMap _)

/-! ### Up to date -/

/-- C69. A rendered file that is done is up to date: after any history of changes of files, of templates, of contexts and of builds,
starting with an empty database, if the status of a renderer is "done", the output file has the text that its template gives for its
context now. The condition is that the text is determined by what is watched. -/
theorem C69_fresh_partial (n : Nat) (hn : n > 0) (hc : c.chunks = readChunks n) (fs0 : FS) (ops : List Op) (e : Env) (r : Renderer)
    (b : Bytes) (hb : Rendered e r b) (hdet : Determined c enc ⟨fs0, []⟩ ops e r) (hcol : NoClash c enc ⟨fs0, []⟩ ops e r)
    (hd : status c enc e (run c enc ⟨fs0, []⟩ ops) r = .ok .done) : (run c enc ⟨fs0, []⟩ ops).fs r.target = some b := by
  obtain ⟨ctx, t, hctx, ht, hbe⟩ := hb
  cases hps : parameters e r with
  | error err => rw [status_error e _ r err hps] at hd; cases hd
  | ok ps =>
    have hin := inputs_of (enc := enc) e r ctx ps hctx hps
    rcases status_cases (c := c) (enc := enc) e (run c enc ⟨fs0, []⟩ ops) r ps hps with ⟨_, h⟩ | ⟨_, _, ⟨h, _⟩ | ⟨_, h⟩⟩
    · rw [hd] at h; cases h
    · unfold CopyFile.needed at h
      obtain ⟨_, i, d, h1, h2, h3⟩ := Classical.not_not.1 h
      obtain ⟨pre, op, post, is, o, k1, k2, k3, k4⟩ := run_rec fs0 ops i d h3
      obtain ⟨a1, a2⟩ := hcol pre op post _ is o k1 hin k2.decides
      have same := (C21_different c n hn hc _ _ _ _ _ _ h1 k3 a1).1 rfl
      obtain ⟨us, us', b4, b5, b6⟩ := (C21_different c n hn hc _ _ _ _ _ _ h2 k4 a2).1 rfl
      obtain ⟨u, u1, rfl⟩ := CopyFile.allCount_one b4
      obtain ⟨v, v1, rfl⟩ := CopyFile.allCount_one b5
      have huv : u = v := by simpa using List.perm_singleton.1 b6
      subst huv
      cases k2 with
      | update e' r' b' _ m1 m2 m3 =>
        have hbb := hdet.same pre e' r' post _ is b b' k1 hin m1 same ⟨ctx, t, hctx, ht, hbe⟩ m2
        have hfs : (run c enc ⟨fs0, []⟩ (pre ++ [.update e' r'])).fs r'.target = some b' := by
          rw [run_snoc, m3]
          simp only [write, if_true]
        have hu : u = b' := by
          cases v1 with
          | file _ _ h _ => rw [hfs] at h; cases h; rfl
          | pdf _ _ _ _ _ h _ =>
            rw [hdet.text.2 e' r' (by rw [k1]; simp)] at h; cases h
        cases u1 with
        | file _ _ h _ => rw [h, hu, hbb]
        | pdf _ _ _ _ _ h _ => rw [hdet.text.1] at h; cases h
      | other _ _ =>
        exfalso
        have hfs : (run c enc ⟨fs0, []⟩ (pre ++ [.other is o true])).fs = (run c enc ⟨fs0, []⟩ pre).fs := by
          rw [run_snoc]; rfl
        rw [hfs] at same
        exact hdet.other pre is o post _ k1 hin same
    · rw [hd] at h; cases h

/-- C69. A renderer that is ready renders: whatever the database has, the output gets the text of the template, the status is "done"
then, and no other file changes. -/
theorem C69_rendered (e : Env) (w : World) (r : Renderer) (b : Bytes) (hb : Rendered e r b) (h : status c enc e w r = .ok .ready) :
    ∃ w', update c enc e w r = (.ok .done, w') ∧ w'.fs r.target = some b ∧ (∀ q, q ≠ r.target → w'.fs q = w.fs q) ∧
      status c enc e w' r = .ok .done := by
  obtain ⟨ctx, t, hctx, ht, rfl⟩ := hb
  obtain ⟨t', ps, ht', hps, h0, hall⟩ := ready_inv e w r ctx hctx h
  rw [ht] at ht'; cases ht'
  obtain ⟨i, d, k1, k2, _⟩ := build_eq (c := c) (enc := enc) e w r ctx t ps hctx ht hps h0 hall
  rcases update_cases (c := c) (enc := enc) e w r with ⟨h', _⟩ | ⟨_, h'⟩
  · exact absurd h h'
  · refine ⟨(build c enc e w r).2, ?_, ?_, ?_, ?_⟩
    · rw [h', ← k1]
    · rw [k2]; simp only [write, if_true]
    · intro q hq; rw [k2]; simp only [write]; rw [if_neg hq]
    · have hs : (build c enc e w r).1 = status c enc e (build c enc e w r).2 r := by
        simp only [build, hctx, ht, hps]
      rw [← hs, k1]

/-- C69. After any such history, a build of a target whose watched files are there ends as "done" with the output up to date. -/
theorem C69_update_partial (n : Nat) (hn : n > 0) (hc : c.chunks = readChunks n) (fs0 : FS) (ops : List Op) (e : Env) (r : Renderer)
    (b : Bytes) (hb : Rendered e r b) (hdet : Determined c enc ⟨fs0, []⟩ ops e r) (hcol : NoClash c enc ⟨fs0, []⟩ ops e r)
    (w : World) (hw : w = run c enc ⟨fs0, []⟩ ops) (ps : List Param) (hps : parameters e r = .ok ps)
    (hall : ∀ p, Param.path p ∈ ps → w.fs p ≠ none) :
    ∃ w', update c enc e w r = (.ok .done, w') ∧ w'.fs r.target = some b ∧ ∀ q, q ≠ r.target → w'.fs q = w.fs q := by
  have h0 : ps ≠ [] := by
    obtain ⟨ctx, t, hctx, ht, _⟩ := hb
    obtain ⟨t', h1, _, h3⟩ := parameters_watched e r ps ctx hctx hps
    rintro rfl
    exact absurd ((h3 (.path (toStr t'.file))).2 (.basic _ (.template t' .refl))) (by simp)
  rcases status_cases (c := c) (enc := enc) e w r ps hps with ⟨h, _⟩ | ⟨_, _, ⟨_, h⟩ | ⟨_, h⟩⟩
  · rcases h with h | ⟨p, hp, hn⟩
    · exact absurd h h0
    · exact absurd hn (hall p hp)
  · refine ⟨w, ?_, ?_, fun _ _ => rfl⟩
    · rcases update_cases (c := c) (enc := enc) e w r with ⟨_, h'⟩ | ⟨h', _⟩
      · rw [h', h]
      · rw [h] at h'; cases h'
    · rw [hw] at h ⊢
      exact C69_fresh_partial n hn hc fs0 ops e r b hb hdet hcol h
  · obtain ⟨w', h1, h2, h3, _⟩ := C69_rendered e w r b hb h
    exact ⟨w', h1, h2, h3⟩

/-- C69. A missing template or dependency is reported, and nothing is written or recorded. -/
theorem C69_missing (e : Env) (w : World) (r : Renderer) (ps : List Param) (hps : parameters e r = .ok ps) (p : Str)
    (hp : Param.path p ∈ ps) (hf : w.fs p = none) : update c enc e w r = (.ok .missingParameters, w) := by
  have h : status c enc e w r = .ok .missingParameters := by
    rcases status_cases (c := c) (enc := enc) e w r ps hps with ⟨_, h⟩ | ⟨_, h, _⟩
    · exact h
    · exact absurd hf (h p hp)
  rcases update_cases (c := c) (enc := enc) e w r with ⟨_, h'⟩ | ⟨h', _⟩
  · rw [h', h]
  · rw [h] at h'; cases h'

/-! ### Where rendered files are not up to date -/

theorem filterMap_set {α β : Type} (g : Str × α → Option β) (ctx : Dict Str α) (k : Str) (v v' : α) (h : ctx.get? k = some v)
    (hg : g (k, v) = g (k, v')) : (ctx.set k v').filterMap g = ctx.filterMap g := by
  induction ctx with
  | nil => cases h
  | cons kv ctx ih =>
    obtain ⟨k', u⟩ := kv
    rw [Dict.get?] at h
    rw [Dict.set]
    by_cases hk : k' = k
    · rw [if_pos hk] at h ⊢
      cases h
      subst hk
      rw [List.filterMap_cons, List.filterMap_cons, hg]
    · rw [if_neg hk] at h ⊢
      rw [List.filterMap_cons, List.filterMap_cons, ih h]

theorem unwatched_status (e : Env) (w : World) (r : Renderer) (ctx : Dict Str Value) (hctx : r.context = some ctx)
    (k : Str) (v v' : Value) (hk : k ≠ "template".toList) (hv : ctx.get? k = some v) (hu : Unwatched v v') (l : List Param) :
    status c enc e w { r with context := some (ctx.set k v'), fromSignals := l } = status c enc e w r := by
  have : parameters e { r with context := some (ctx.set k v'), fromSignals := l } = parameters e r := by
    refine parameters_congr e r _ ctx (ctx.set k v') hctx rfl rfl rfl ?_ ?_
    · unfold templateName
      rw [Dict.get?_set, if_neg hk]
    · unfold hashes
      rw [filterMap_set _ ctx k v v' hv (by cases hu <;> rfl)]
  unfold status
  rw [this]

/-- Refutation: if, after a file was rendered, an entry of the context like the title is changed, or a macro that is used in the text,
or a label in another document, the status stays "done", and the file has the old text. This is so for every hash function. -/
theorem C69_stale (e : Env) (w : World) (r : Renderer) (ctx : Dict Str Value) (t : Tpl) (hctx : r.context = some ctx)
    (ht : template e.loader ctx r.ext = .ok t) (h : status c enc e w r = .ok .ready)
    (k : Str) (v v' : Value) (hk : k ≠ "template".toList) (hv : ctx.get? k = some v) (hu : Unwatched v v') (l : List Param)
    (hr : e.render t (ctx.set k v') ≠ e.render t ctx) :
    ∃ w' r', r' = { r with context := some (ctx.set k v'), fromSignals := l } ∧ update c enc e w r = (.ok .done, w') ∧
      update c enc e w' r' = (.ok .done, w') ∧ ∃ b, Rendered e r' b ∧ w'.fs r'.target ≠ some b := by
  obtain ⟨w', h1, h2, _, h4⟩ := C69_rendered e w r _ ⟨ctx, t, hctx, ht, rfl⟩ h
  refine ⟨w', _, rfl, h1, ?_, ?_⟩
  · have hs := unwatched_status (c := c) (enc := enc) e w' r ctx hctx k v v' hk hv hu l
    rw [h4] at hs
    unfold update
    rw [hs]
  · refine ⟨e.render t (ctx.set k v'), ⟨_, t, rfl, ?_, rfl⟩, ?_⟩
    · rw [← ht]
      unfold template
      have : templateName (ctx.set k v') = templateName ctx := by
        unfold templateName
        rw [Dict.get?_set, if_neg hk]
      rw [this]
    · rw [h2]
      exact fun hh => hr (Option.some.inj hh).symm

/-- Refutation: a template in `d/x/f` whose directory `d` has no `context.txt` takes the entries of that of the parent directory, but
the renderer does not watch that file. -/
theorem C69_context_unwatched (disk : Template.Disk) (ld : Loader) (hld : ∀ p, ld.isFile p = (disk.text p).isSome) (d : Path)
    (x f : Str) (h1 : disk.text ⟨d.abs, d.parts ++ ["context.txt".toList]⟩ = none)
    (h2 : (disk.text ⟨d.abs, d.parts.dropLast ++ ["context.txt".toList]⟩).isSome = true) :
    Template.contextFile disk d = some ⟨d.abs, d.parts.dropLast ++ ["context.txt".toList]⟩ ∧
    contextFiles ld [⟨d.abs, d.parts ++ [x, f]⟩] = [] := by
  have hp : parse "context.txt".toList = ⟨false, ["context.txt".toList]⟩ := by decide
  constructor
  · unfold Template.contextFile
    rw [hp]
    simp only [Paths.div, Paths.parent, Bool.false_eq_true, if_false]
    rw [h1]
    simp only [Option.isSome_none, Bool.false_eq_true, if_false]
    rw [if_pos h2]
  · rw [List.eq_nil_iff_forall_not_mem]
    intro p hm
    obtain ⟨f', hf, h3, h4⟩ := (contextFiles_mem _ _).1 hm
    rw [List.mem_singleton] at hf
    subst hf
    rw [context_path] at h3
    have hd : (d.parts ++ [x, f]).dropLast.dropLast = d.parts := by
      have : d.parts ++ [x, f] = (d.parts ++ [x]) ++ [f] := by simp
      rw [this, List.dropLast_concat, List.dropLast_concat]
    simp only [hd] at h3
    rw [h3, hld, h1] at h4
    cases h4

/-! ### Concrete cases -/

/-- A loader for the checks: a template that includes a menu. -/
def toyLoader : Loader where
  load n :=
    if n = "default/html/template.html".toList then
      some ⟨n, parse "/t/default/html/template.html".toList, [some "default/html/menu.html".toList]⟩
    else if n = "default/html/menu.html".toList then some ⟨n, parse "/t/default/html/menu.html".toList, []⟩
    else if n = "loop.html".toList then some ⟨n, parse "/t/loop.html".toList, [some "loop.html".toList]⟩
    else none
  isFile p := p = parse "/t/default/context.txt".toList

/-- An environment for the checks: the text is that of the title. -/
def toyEnv : Env := ⟨toyLoader, fun _ => .ok [], 10, fun _ ctx => match ctx.get? "title".toList with
  | some (.text s) => s.map fun ch => ch.toNat.toUInt8
  | _ => [0]⟩

def toyEnc (s : Str) : Bytes := s.map fun ch => ch.toNat.toUInt8

def toyRenderer (title : Str) : Renderer :=
  ⟨[], some [("title".toList, .text title), ("body".toList, .tag (some "h1".toList) "text".toList)], ".html".toList, "o".toList, []⟩

def toyWorld : World := ⟨fun p =>
  if p = "/t/default/html/template.html".toList ∨ p = "/t/default/html/menu.html".toList ∨ p = "/t/default/context.txt".toList
  then some [1] else none, []⟩

/-- What is watched, and what happens: the file is rendered, is done, and with a new title it is still done. -/
example :
    (parameters toyEnv (toyRenderer "A".toList)).toOption = some [.path "/t/default/html/template.html".toList,
      .path "/t/default/html/menu.html".toList, .path "/t/default/context.txt".toList, .text "h1".toList] ∧
    (status toy toyEnc toyEnv toyWorld (toyRenderer "A".toList)).toOption = some .ready ∧
    (update toy toyEnc toyEnv toyWorld (toyRenderer "A".toList)).2.fs "o".toList = some [65] ∧
    (status toy toyEnc toyEnv (update toy toyEnc toyEnv toyWorld (toyRenderer "A".toList)).2 (toyRenderer "A".toList)).toOption = some .done ∧
    (status toy toyEnc toyEnv (update toy toyEnc toyEnv toyWorld (toyRenderer "A".toList)).2 (toyRenderer "B".toList)).toOption =
      some .done := by
  decide +kernel

/-- The hypotheses of `C69_cycle` are met. -/
example : ∃ t, template toyLoader [("template".toList, .text "loop".toList)] ".html".toList = .ok t ∧ Follows toyLoader t t := by
  refine ⟨_, rfl, _, "loop.html".toList, .refl, ?_, ?_⟩
  · decide
  · rfl

/-- The hypotheses of `C69_selected` are met. -/
example : Good ⟨false, []⟩ ∧ IsName "default".toList ∧ Splits "default".toList "default".toList [] ∧ IsExt "html".toList ∧
    Chosen toyLoader ((namesFor ⟨false, []⟩ "default".toList "default".toList "html".toList).map toStr)
      ⟨"default/html/template.html".toList, parse "/t/default/html/template.html".toList, [some "default/html/menu.html".toList]⟩ := by
  refine ⟨by simp [Good], ⟨by decide, by decide, by decide⟩, .inr ⟨rfl, by decide, rfl, ?_⟩, ⟨by decide, by decide, by decide⟩, ?_⟩
  · intro a b h _
    have : '.' ∈ "default".toList := by rw [h]; simp
    exact absurd this (by decide)
  · exact ⟨[], _, _, rfl, by simp, by decide⟩

/-- An environment with one template. -/
def oneEnv : Env := ⟨⟨fun n => if n = "default/html/template.html".toList then some ⟨n, ⟨true, ["t".toList]⟩, []⟩ else none, fun _ => false⟩,
  fun _ => .ok [], 10, fun _ _ => [1, 2]⟩

def oneRenderer : Renderer := ⟨[], some [], ".html".toList, "o".toList, []⟩

def oneWorld : World := ⟨fun p => if p = "/t".toList then some [5] else none, []⟩

theorem one_inputs (is : List Item) (h : Inputs CopyFile.toyEnc oneEnv oneRenderer is) :
    is = [.path "/t".toList, .other (CopyFile.toyEnc "render".toList)] := by
  obtain ⟨ctx, t, l, h1, h2, hn, hl, rfl⟩ := h
  have hc : ctx = [] := by
    have : some ([] : Dict Str Value) = some ctx := h1
    cases this; rfl
  subst hc
  have ht : t = ⟨"default/html/template.html".toList, ⟨true, ["t".toList]⟩, []⟩ := by
    have : template oneEnv.loader [] oneRenderer.ext = .ok ⟨"default/html/template.html".toList, ⟨true, ["t".toList]⟩, []⟩ := by rfl
    rw [this] at h2; cases h2; rfl
  subst ht
  have hr : ∀ u, Reaches oneEnv.loader ⟨"default/html/template.html".toList, ⟨true, ["t".toList]⟩, []⟩ u →
      u = ⟨"default/html/template.html".toList, ⟨true, ["t".toList]⟩, []⟩ := by
    intro u hu
    rcases reaches_head hu with h | ⟨n, v, hn, _⟩
    · exact h.symm
    · cases hn
  have hb : ∀ x, Basic oneEnv.loader oneRenderer.given ⟨"default/html/template.html".toList, ⟨true, ["t".toList]⟩, []⟩ x →
      x = .path "/t".toList := by
    intro x hx
    cases hx with
    | given _ h => cases h
    | template u hu => rw [hr u hu]; rfl
    | context u p hu _ h => cases h
  have hl' : ∀ x, x ∈ l ↔ x = .path "/t".toList := by
    intro x
    rw [hl]
    constructor
    · intro h
      cases h with
      | basic _ h => exact hb x h
      | scanned y _ k _ h1 h2 => cases h1; cases h2
      | hash k h s hm => cases hm
    · rintro rfl
      exact .basic _ (.template _ .refl)
  have : l = [.path "/t".toList] := by
    match l, hn, hl' with
    | [], _, h => exact absurd ((h _).2 rfl) (by simp)
    | [x], _, h => rw [(h x).1 List.mem_cons_self]
    | x :: y :: l, hn, h =>
      rw [(h x).1 List.mem_cons_self, (h y).1 (List.mem_cons_of_mem _ List.mem_cons_self)] at hn
      exact absurd List.mem_cons_self (List.nodup_cons.1 hn).1
  rw [this]; rfl

/-- The hypotheses of the theorems on histories are met, after the file was rendered. -/
example : Determined toy CopyFile.toyEnc oneWorld [.update oneEnv oneRenderer] oneEnv oneRenderer ∧
    NoClash toy CopyFile.toyEnc oneWorld [.update oneEnv oneRenderer] oneEnv oneRenderer ∧
    (status toy CopyFile.toyEnc oneEnv (run toy CopyFile.toyEnc oneWorld [.update oneEnv oneRenderer]) oneRenderer).toOption = some .done := by
  refine ⟨⟨?_, ?_, ?_⟩, ?_, by decide +kernel⟩
  · intro pre e' r' post is is' b b' h _ _ _ h1 h2
    cases pre with
    | cons x pre =>
      rw [List.cons_append, List.cons.injEq] at h
      exact absurd h.2.symm (by simp)
    | nil =>
      rw [List.nil_append, List.cons.injEq] at h
      obtain ⟨h, _⟩ := h
      cases h
      obtain ⟨_, _, _, _, rfl⟩ := h1
      obtain ⟨_, _, _, _, rfl⟩ := h2
      rfl
  · intro pre is' o post is h
    cases pre with
    | cons x pre =>
      rw [List.cons_append, List.cons.injEq] at h
      exact absurd h.2.symm (by simp)
    | nil => cases h
  · refine ⟨by decide, ?_⟩
    intro e' r' h
    cases List.mem_singleton.1 h
    decide
  · intro pre op post is is' o h hin hd
    cases pre with
    | cons x pre =>
      rw [List.cons_append, List.cons.injEq] at h
      exact absurd h.2.symm (by simp)
    | nil =>
      rw [List.nil_append, List.cons.injEq] at h
      obtain ⟨rfl, rfl⟩ := h
      cases hd with
      | update _ _ _ hin' =>
        rw [one_inputs _ hin, one_inputs _ hin', List.nil_append]
        have k1 : ([.path "/t".toList, .other (CopyFile.toyEnc "render".toList)] : List Item).mapM
            (toy.fed (run toy CopyFile.toyEnc oneWorld [.update oneEnv oneRenderer]).fs) = some [[5], [9]] := by decide +kernel
        have k2 : ([.path "o".toList] : List Item).mapM
            (toy.fed (run toy CopyFile.toyEnc oneWorld [.update oneEnv oneRenderer]).fs) = some [[1, 2]] := by decide +kernel
        constructor
        · intro ts ts' ds ds' h1 h2 h3 h4
          have e1 := (allCount_iff toy 2 (by decide) rfl _ _ _).2 h1
          have e2 := (allCount_iff toy 2 (by decide) rfl _ _ _).2 h2
          rw [k1] at e1 e2
          cases e1; cases e2
          have two : ∀ ds : List Bytes, ds.Perm ([[5], [9]].map toyH) → ds = [toyH [5], toyH [9]] ∨ ds = [toyH [9], toyH [5]] := by
            intro ds h
            match ds, h.length_eq with
            | [a, b], _ =>
              rcases CopyFile.perm_two h with ⟨rfl, rfl⟩ | ⟨rfl, rfl⟩
              · exact .inl rfl
              · exact .inr rfl
          rcases two ds h3 with rfl | rfl <;> rcases two ds' h4 with rfl | rfl <;>
            exact ⟨by decide +kernel, 4, by decide, by decide +kernel⟩
        · intro ts ts' ds ds' h1 h2 h3 h4
          have e1 := (allCount_iff toy 2 (by decide) rfl _ _ _).2 h1
          have e2 := (allCount_iff toy 2 (by decide) rfl _ _ _).2 h2
          have k2' : ([.path oneRenderer.target] : List Item).mapM
            (toy.fed (run toy CopyFile.toyEnc oneWorld [.update oneEnv oneRenderer]).fs) = some [[1, 2]] := k2
          rw [k2'] at e1 e2
          cases e1; cases e2
          cases List.perm_singleton.1 h3
          cases List.perm_singleton.1 h4
          exact ⟨by decide +kernel, 4, by decide, by decide +kernel⟩

end Verif.Jinja
