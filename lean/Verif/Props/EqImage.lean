import Verif.Lemmas.EqImage

/-!
# C84: the images of equations
-/

namespace Verif.EqImage

open Verif Verif.Attrs Verif.Attrs.Spec Verif.Formats Verif.Render Verif.Paths Verif.AddFile

/-- The template of the package, in a directory. -/
abbrev template (dir : Path) : SourcePath := ⟨dir, ⟨false, ["eq.tex".toList]⟩⟩

theorem mem_items (hashtxt : Str → Str) (templ : SourcePath) (target : Str) (e : Equation) (a : Arg) :
    a ∈ e.items hashtxt templ target ↔ a = .text e.content ∨ a ∈ attrArgs (Attrs.filter trackedTargets e.imageAttrs none (some target)) ∨
      a = .path (.source templ) ∨ ∃ s, e.raw = some s ∧ a = .text (hashtxt s) := by
  unfold Equation.items Equation.parameters
  rw [Lists.mem_uniq]
  simp only [List.cons_append, List.mem_cons, List.mem_append]
  have : a ∈ (e.raw.map fun s => Arg.text (hashtxt s)).toList ↔ ∃ s, e.raw = some s ∧ a = .text (hashtxt s) := by
    cases e.raw with
    | none => simp
    | some s => simp
  rw [this]

theorem positional_mem (posType : Str → PType) (e : Equation) (h : Plain posType e) (k : Str) (t : PType) :
    e.imageAttrs.get? k = some (.pos t) ↔ (k, AVal.pos t) ∈ e.attrs := by
  by_cases h1 : k = "crop".toList ∨ k = "offset".toList ∨ k = "class".toList
  · constructor
    · intro hg
      exfalso
      rcases h1 with rfl | rfl | rfl
      · unfold Equation.imageAttrs at hg
        rw [Dict.get?_set, if_neg (by decide), Dict.get?_set, if_neg (by decide), Dict.get?_set_self] at hg
        exact absurd (Option.some.inj hg) (by nofun)
      · unfold Equation.imageAttrs at hg
        rw [Dict.get?_set, if_neg (by decide), Dict.get?_set_self] at hg
        exact absurd (Option.some.inj hg) (by nofun)
      · rw [imageAttrs_class] at hg
        exact absurd (Option.some.inj hg) (by nofun)
    · intro hm
      exfalso
      have hk : k ∈ e.attrs.keys := List.mem_map.2 ⟨_, hm, rfl⟩
      rcases h1 with rfl | rfl | rfl
      · exact h.free "crop" (by simp) hk
      · exact h.free "offset" (by simp) hk
      · exact h.free "class" (by simp) hk
  · rw [imageAttrs_get e k (fun hh => h1 (.inl hh)) (fun hh => h1 (.inr (.inl hh))) (fun hh => h1 (.inr (.inr hh)))]
    exact ⟨fun hg => Dict.mem_of_get? _ _ _ hg, fun hm => Dict.get?_of_mem _ h.distinct _ _ hm⟩

theorem entries (hashtxt : Str → Str) (posType : Str → PType) (templ : SourcePath) (T : Str) (hT : T ∈ trackedTargets) (a b : Equation)
    (ha : Plain posType a) (hb : Plain posType b) (hab : Apart hashtxt a b) (hba : Apart hashtxt b a)
    (h : ∀ x, x ∈ a.items hashtxt templ ('.' :: T) → x ∈ b.items hashtxt templ ('.' :: T)) (k : Str) (v : AVal)
    (hv : a.imageAttrs.get? k = some v) : b.imageAttrs.get? k = some v := by
  have fa := fun k v => mem_filter_plain a.imageAttrs (imageAttrs_nodup a ha.distinct) (imageAttrs_general a ha.general) T hT k v
  have fb := fun k v => mem_filter_plain b.imageAttrs (imageAttrs_nodup b hb.distinct) (imageAttrs_general b hb.general) T hT k v
  cases v with
  | str s =>
    have h1 := h (.pair k s) ((mem_items ..).2 (.inr (.inl ((mem_attrArgs_pair _ _ _).2 ((fa _ _).2 hv)))))
    rcases (mem_items ..).1 h1 with h1 | h1 | h1 | ⟨_, _, h1⟩
    · cases h1
    · exact (fb _ _).1 ((mem_attrArgs_pair _ _ _).1 h1)
    · cases h1
    · cases h1
  | pos t =>
    have hpos : (k, AVal.pos t) ∈ a.attrs := (positional_mem posType a ha k t).1 hv
    have h1 := h (.text k) ((mem_items ..).2 (.inr (.inl ((mem_attrArgs_text _ _).2 ⟨t, (fa _ _).2 hv⟩))))
    rcases (mem_items ..).1 h1 with h1 | h1 | h1 | ⟨s, hs, h1⟩
    · injection h1 with h1
      subst h1
      exact absurd ⟨t, hpos⟩ hba.1
    · obtain ⟨t', ht'⟩ := (mem_attrArgs_text _ _).1 h1
      have h2 := (fb _ _).1 ht'
      have h3 := (positional_mem posType b hb k t').1 h2
      rw [h2, ha.classes k t hpos, hb.classes k t' h3]
    · cases h1
    · injection h1 with h1
      subst h1
      exact absurd ⟨t, hpos⟩ (hab.2 s hs).2

/-- C84. Where the image of an equation is: in the media directory of the target, under a name made of `eq` and the hash of its items. -/
theorem C84_place (env : Env) (henv : Good env.targetRoot) (hcache : Good env.cachePath) (hm : env.mediaPath = some "media".toList) (root : Path)
    (hr : Good root) (dir : Path) (hashtxt : Str → Str) (hash : List Arg → Str) (hh : Hashes hash) (T : Str)
    (hT : T ∈ ["html".toList, "xhtml".toList]) (e : Equation) :
    ∃ h, h = hash (e.items hashtxt (template dir) ('.' :: T)) ∧
      e.image env root (template dir) hashtxt hash ('.' :: T) =
        .ok (some ⟨env.targetRoot, ⟨false, [T]⟩, ⟨false, ["media".toList, "eq_".toList ++ h ++ ".svg".toList]⟩⟩) ∧
      e.texFile env root (template dir) hashtxt hash ('.' :: T) =
        .ok (some ⟨env.cachePath, ⟨false, [T]⟩, ⟨false, ["media".toList, "eq_".toList ++ h ++ ".tex".toList]⟩⟩) := by
  have hT' : IsName T ∧ T.head? ≠ some '.' ∧ T.getLast? ≠ some '.' := by
    have : T = "html".toList ∨ T = "xhtml".toList := by simpa using hT
    rcases this with rfl | rfl
    · exact ⟨⟨by decide, by decide, by decide⟩, by decide, by decide⟩
    · exact ⟨⟨by decide, by decide, by decide⟩, by decide, by decide⟩
  obtain ⟨h1, h2, h3⟩ := hh (e.items hashtxt (template dir) ('.' :: T))
  have := imageOut_eq env henv hcache hm root hr dir (hash (e.items hashtxt (template dir) ('.' :: T)))
    (by intro h; rw [h] at h1; simp at h1) h2 h3 T hT'.1 hT'.2.1 hT'.2.2 false
  exact ⟨_, rfl, this.2, this.1⟩

/-- C84. Equations that have the same image are the same in LaTeX: an image is never one of another equation. The hash takes the items of
the two equations apart, if they differ. The equations are plain, their texts are not mistaken for each other, and both or neither of them are
named `termb`. -/
theorem C84_own_partial (env : Env) (henv : Good env.targetRoot) (hcache : Good env.cachePath) (hm : env.mediaPath = some "media".toList)
    (root : Path) (hr : Good root) (dir : Path) (hashtxt : Str → Str) (hash : List Arg → Str) (hh : Hashes hash) (posType : Str → PType) (T : Str)
    (hT : T ∈ ["html".toList, "xhtml".toList]) (a b : Equation) (ha : Plain posType a) (hb : Plain posType b)
    (hab : Apart hashtxt a b) (hba : Apart hashtxt b a)
    (hbold : a.name = "termb".toList ↔ b.name = "termb".toList)
    (hhash : hash (a.items hashtxt (template dir) ('.' :: T)) = hash (b.items hashtxt (template dir) ('.' :: T)) →
      ∀ x, x ∈ a.items hashtxt (template dir) ('.' :: T) ↔ x ∈ b.items hashtxt (template dir) ('.' :: T))
    (h : a.image env root (template dir) hashtxt hash ('.' :: T) = b.image env root (template dir) hashtxt hash ('.' :: T))
    (sp : Char → Bool) (load : Str → ADict) : a.tex sp load = b.tex sp load := by
  have hTt : T ∈ trackedTargets := by
    have : T = "html".toList ∨ T = "xhtml".toList := by simpa using hT
    rcases this with rfl | rfl <;> decide
  obtain ⟨x, rfl, h1, -⟩ := C84_place env henv hcache hm root hr dir hashtxt hash hh T hT a
  obtain ⟨y, rfl, h2, -⟩ := C84_place env henv hcache hm root hr dir hashtxt hash hh T hT b
  rw [h1, h2] at h
  have hx : hash (a.items hashtxt (template dir) ('.' :: T)) = hash (b.items hashtxt (template dir) ('.' :: T)) := by
    injection h with h
    injection h with h
    injection h with _ _ h
    injection h with _ h
    injection h with _ h
    injection h with h _
    exact List.append_cancel_left (List.append_cancel_right h)
  have hset := hhash hx
  have hentry : ∀ k, a.imageAttrs.get? k = b.imageAttrs.get? k := by
    intro k
    cases hk : a.imageAttrs.get? k with
    | some v => exact (entries hashtxt posType _ T hTt a b ha hb hab hba (fun x => (hset x).1) k v hk).symm
    | none =>
      cases hk' : b.imageAttrs.get? k with
      | none => rfl
      | some v => rw [entries hashtxt posType _ T hTt b a hb ha hba hab (fun x => (hset x).2) k v hk'] at hk; cases hk
  have hget : ∀ k, a.attrs.get? k = b.attrs.get? k := by
    intro k
    by_cases h1 : k = "crop".toList ∨ k = "offset".toList ∨ k = "class".toList
    · have : k.asString ∈ ["crop", "offset", "class"] ∧ k.asString.toList = k := by
        rcases h1 with rfl | rfl | rfl <;> decide
      have e1 := ha.free _ this.1
      have e2 := hb.free _ this.1
      rw [this.2] at e1 e2
      rw [(Dict.get?_eq_none_iff _ _).2 e1, (Dict.get?_eq_none_iff _ _).2 e2]
    · have c1 := fun hh => h1 (.inl hh)
      have c2 := fun hh => h1 (.inr (.inl hh))
      have c3 := fun hh => h1 (.inr (.inr hh))
      rw [← imageAttrs_get a k c1 c2 c3, ← imageAttrs_get b k c1 c2 c3]
      exact hentry k
  have hcontent : a.content = b.content := by
    have h3 := (hset (.text a.content)).1 ((mem_items ..).2 (.inl rfl))
    rcases (mem_items ..).1 h3 with h3 | h3 | h3 | ⟨s, hs, h3⟩
    · injection h3
    · obtain ⟨t, ht⟩ := (mem_attrArgs_text _ _).1 h3
      have h4 := (mem_filter_plain b.imageAttrs (imageAttrs_nodup b hb.distinct) (imageAttrs_general b hb.general) T hTt _ _).1 ht
      exact absurd ⟨t, (positional_mem posType b hb _ t).1 h4⟩ hab.1
    · cases h3
    · injection h3 with h3
      exact absurd h3 (hab.2 s hs).1
  have hblock : (a.block || a.attrs.has "env".toList) = (b.block || b.attrs.has "env".toList) := by
    have h3 := hentry "class".toList
    rw [imageAttrs_class, imageAttrs_class] at h3
    revert h3
    cases (a.block || a.attrs.has "env".toList) <;> cases (b.block || b.attrs.has "env".toList) <;> decide
  exact tex_congr sp load posType a b ha hb hbold hcontent hget hblock

/-- C84. The same equations share an image: the order of the attributes does not matter, nor whether an equation is a block by a parameter
or by its environment, or its name. -/
theorem C84_shared (env : Env) (root : Path) (templ : SourcePath) (hashtxt : Str → Str) (hash : List Arg → Str)
    (hsort : ∀ l l', l.Perm l' → hash l = hash l') (T : Str) (hT : T ∈ trackedTargets) (a b : Equation)
    (hn : a.attrs.keys.Nodup) (hg : ∀ k ∈ a.attrs.keys, ¬ Suffixed trackedTargets k)
    (hp : a.attrs.Perm b.attrs) (hc : a.content = b.content) (hr : a.raw = b.raw)
    (hblock : (a.block ∨ "env".toList ∈ a.attrs.keys) ↔ (b.block ∨ "env".toList ∈ b.attrs.keys)) :
    a.image env root templ hashtxt hash ('.' :: T) = b.image env root templ hashtxt hash ('.' :: T) := by
  have hk : a.attrs.keys.Perm b.attrs.keys := by unfold Dict.keys; exact hp.map _
  have hn' : b.attrs.keys.Nodup := hk.nodup_iff.1 hn
  have hg' : ∀ k ∈ b.attrs.keys, ¬ Suffixed trackedTargets k := fun k hk' => hg k (hk.mem_iff.2 hk')
  have hget : ∀ k, a.attrs.get? k = b.attrs.get? k := by
    intro k
    cases h : a.attrs.get? k with
    | some v => exact (Dict.get?_of_mem _ hn' _ _ (hp.mem_iff.1 (Dict.mem_of_get? _ _ _ h))).symm
    | none => exact ((Dict.get?_eq_none_iff _ _).2 (fun hh => (Dict.get?_eq_none_iff _ _).1 h (hk.mem_iff.2 hh))).symm
  have hb : (a.block || a.attrs.has "env".toList) = (b.block || b.attrs.has "env".toList) := by
    rw [Bool.eq_iff_iff, Bool.or_eq_true, Bool.or_eq_true, Dict.has_iff, Dict.has_iff]
    exact hblock
  have himg : ∀ k, a.imageAttrs.get? k = b.imageAttrs.get? k := by
    intro k
    unfold Equation.imageAttrs
    rw [hb]
    simp only [Dict.get?_set, hget]
  have hmem : ∀ x, x ∈ a.items hashtxt templ ('.' :: T) ↔ x ∈ b.items hashtxt templ ('.' :: T) := by
    intro x
    have fa := fun k v => mem_filter_plain a.imageAttrs (imageAttrs_nodup a hn) (imageAttrs_general a hg) T hT k v
    have fb := fun k v => mem_filter_plain b.imageAttrs (imageAttrs_nodup b hn') (imageAttrs_general b hg') T hT k v
    rw [mem_items, mem_items, hc, hr]
    have : x ∈ attrArgs (Attrs.filter trackedTargets a.imageAttrs none (some ('.' :: T))) ↔
        x ∈ attrArgs (Attrs.filter trackedTargets b.imageAttrs none (some ('.' :: T))) := by
      cases x with
      | path p => exact ⟨fun h => absurd h (path_not_mem_attrArgs _ _), fun h => absurd h (path_not_mem_attrArgs _ _)⟩
      | pair k v => rw [mem_attrArgs_pair, mem_attrArgs_pair, fa, fb, himg]
      | text k =>
        rw [mem_attrArgs_text, mem_attrArgs_text]
        constructor
        · rintro ⟨t, h⟩; exact ⟨t, (fb _ _).2 (by rw [← himg]; exact (fa _ _).1 h)⟩
        · rintro ⟨t, h⟩; exact ⟨t, (fa _ _).2 (by rw [himg]; exact (fb _ _).1 h)⟩
    rw [this]
  have hperm : (a.items hashtxt templ ('.' :: T)).Perm (b.items hashtxt templ ('.' :: T)) :=
    (List.perm_ext_iff_of_nodup (Lists.uniq_nodup _) (Lists.uniq_nodup _)).2 hmem
  unfold Equation.image
  rw [hsort _ _ hperm]

/-! ### Findings -/

/-- Finding: `@term{x}` and `@termb{x}` share their image, though only the second is bold. -/
theorem C84_bold_refuted : ∃ a b : Equation, Plain (fun _ => .string) a ∧ Plain (fun _ => .string) b ∧ a.attrs = [] ∧ b.attrs = [] ∧
    a.content = "x".toList ∧ b.content = "x".toList ∧
    (∀ env root templ hashtxt hash target, a.image env root templ hashtxt hash target = b.image env root templ hashtxt hash target) ∧
    ∀ load, a.tex (· = ' ') load = .ok "\\ensuremath{x}".toList ∧ b.tex (· = ' ') load = .ok "\\ensuremath{\\boldsymbol{x}}".toList := by
  refine ⟨⟨false, "term".toList, [], "x".toList, some "x".toList⟩, ⟨false, "termb".toList, [], "x".toList, some "x".toList⟩,
    ⟨by decide, by nofun, by decide, by nofun, by nofun⟩, ⟨by decide, by nofun, by decide, by nofun, by nofun⟩, rfl, rfl, rfl, rfl, ?_, ?_⟩
  · intros; rfl
  · intro load
    exact ⟨by rfl, by rfl⟩

/-- Finding: an attribute for LaTeX only changes an equation, but not the name of its image in html. -/
theorem C84_target_refuted : ∃ a b : Equation, a.attrs = [] ∧ b.attrs = [("env.tex".toList, .str "align".toList)] ∧ a.content = b.content ∧
    (∀ env root templ hashtxt hash, a.image env root templ hashtxt hash ".html".toList = b.image env root templ hashtxt hash ".html".toList) ∧
    ∀ load, a.tex (· = ' ') load = .ok "\\begin{align*} %\nx\n\\end{align*}".toList ∧
      b.tex (· = ' ') load = .ok "\\begin{align} %\nx\n\\end{align}".toList := by
  refine ⟨⟨true, "eq".toList, [], "x".toList, some "x".toList⟩,
    ⟨true, "eq".toList, [("env.tex".toList, .str "align".toList)], "x".toList, some "x".toList⟩, rfl, rfl, rfl, ?_, ?_⟩
  · intro env root templ hashtxt hash
    have : Equation.parameters ".html".toList ⟨true, "eq".toList, [], "x".toList, some "x".toList⟩ =
        Equation.parameters ".html".toList ⟨true, "eq".toList, [("env.tex".toList, .str "align".toList)], "x".toList, some "x".toList⟩ := by
      decide +kernel
    unfold Equation.image Equation.items
    rw [this]
  · intro load
    exact ⟨by rfl, by rfl⟩

/-- Finding: with two numbers their order changes an equation, but not the name of its image. -/
theorem C84_order_refuted : ∃ a b : Equation, a.content = b.content ∧ a.name = b.name ∧
    (∀ env root templ hashtxt hash, (∀ l l', l.Perm l' → hash l = hash l') →
      a.image env root templ hashtxt hash ".html".toList = b.image env root templ hashtxt hash ".html".toList) ∧
    ∀ load, a.tex (· = ' ') load = .ok "\\begin{alignat*}{2} %\nx\n\\end{alignat*}".toList ∧
      b.tex (· = ' ') load = .ok "\\begin{alignat*}{3} %\nx\n\\end{alignat*}".toList := by
  refine ⟨⟨false, "eq".toList, [("env".toList, .str "alignat*".toList), ("2".toList, .pos .int), ("3".toList, .pos .int)], "x".toList, some "x".toList⟩,
    ⟨false, "eq".toList, [("env".toList, .str "alignat*".toList), ("3".toList, .pos .int), ("2".toList, .pos .int)], "x".toList, some "x".toList⟩,
    rfl, rfl, ?_, ?_⟩
  · intro env root templ hashtxt hash hs
    refine C84_shared env root templ hashtxt hash hs "html".toList (by decide) _ _ (by decide) ?_ ?_ rfl rfl ?_
    · intro k hk
      rw [← isTargetSpecific_false_iff _ trackedTargets_good]
      revert k
      decide
    · exact (List.Perm.swap _ _ _).cons _
    · exact ⟨fun _ => .inr (by decide), fun _ => .inr (by decide)⟩
  · intro load
    exact ⟨by rfl, by rfl⟩

/-- Finding: the content of an equation is taken for an attribute of the same text. -/
theorem C84_mistaken_refuted : ∃ a b : Equation, a.name = b.name ∧ a.content = b.content ∧ a.attrs = [] ∧ b.attrs = [("bold".toList, .pos .string)] ∧
    (∀ env root templ hashtxt hash, a.image env root templ hashtxt hash ".html".toList = b.image env root templ hashtxt hash ".html".toList) ∧
    ∀ load, a.tex (· = ' ') load = .ok "\\ensuremath{bold}".toList ∧ b.tex (· = ' ') load = .ok "\\ensuremath{\\boldsymbol{bold}}".toList := by
  refine ⟨⟨false, "eq".toList, [], "bold".toList, some "bold".toList⟩,
    ⟨false, "eq".toList, [("bold".toList, .pos .string)], "bold".toList, some "bold".toList⟩, rfl, rfl, rfl, rfl, ?_, ?_⟩
  · intro env root templ hashtxt hash
    have h1 : ∃ l, Equation.parameters ".html".toList ⟨false, "eq".toList, [], "bold".toList, some "bold".toList⟩ = .text "bold".toList :: l ∧
        Equation.parameters ".html".toList ⟨false, "eq".toList, [("bold".toList, .pos .string)], "bold".toList, some "bold".toList⟩ =
          .text "bold".toList :: .text "bold".toList :: l := ⟨_, rfl, by decide +kernel⟩
    obtain ⟨l, h1, h2⟩ := h1
    have h3 : ∀ (x : Arg) (l : List Arg), Lists.uniq id (x :: x :: l) = Lists.uniq id (x :: l) := by
      intro x l
      unfold Lists.uniq
      simp [Lists.uniqLoop]
    unfold Equation.image Equation.items
    rw [h1, h2, List.cons_append, List.cons_append, List.cons_append, h3]
  · intro load
    exact ⟨by rfl, by rfl⟩

/-! ### Concrete cases -/

/-- The class of a text that is a number, and else that of a text. -/
def classOf (s : Str) : PType := if s.all (·.isDigit) then .int else .string

/-- `@eq[env=alignat* 2 color=blue bold]{x &= y}`. -/
def eqA : Equation := ⟨false, "eq".toList, [("env".toList, .str "alignat*".toList), ("2".toList, .pos .int), ("color".toList, .str "blue".toList),
  ("bold".toList, .pos .string)], "x &= y".toList, some "x &= y".toList⟩

/-- `@eq[bold 2 env=alignat* color=blue]{x &= y}`. -/
def eqB : Equation := ⟨false, "eq".toList, [("bold".toList, .pos .string), ("2".toList, .pos .int), ("env".toList, .str "alignat*".toList),
  ("color".toList, .str "blue".toList)], "x &= y".toList, some "x &= y".toList⟩

/-- `@eq{x}`. -/
def eqC : Equation := ⟨false, "eq".toList, [], "x".toList, some "x".toList⟩

theorem eqA_plain : Plain classOf eqA := by
  refine ⟨by decide, ?_, by decide, ?_, ?_⟩
  · intro k hk
    rw [← isTargetSpecific_false_iff _ trackedTargets_good]
    revert k
    decide
  · intro k t h
    have : (k = "2".toList ∧ t = .int) ∨ (k = "bold".toList ∧ t = .string) := by simpa [eqA] using h
    rcases this with ⟨rfl, rfl⟩ | ⟨rfl, rfl⟩ <;> decide
  · intro k k' t h h'
    have h1 : (k = "2".toList ∧ t = .int) ∨ (k = "bold".toList ∧ t = .string) := by simpa [eqA] using h
    have h2 : (k' = "2".toList ∧ t = .int) ∨ (k' = "bold".toList ∧ t = .string) := by simpa [eqA] using h'
    left
    rcases h1 with ⟨rfl, rfl⟩ | ⟨rfl, rfl⟩ <;> rcases h2 with ⟨rfl, h2⟩ | ⟨rfl, h2⟩ <;> first | rfl | cases h2

example : Plain classOf eqC := ⟨by decide, by nofun, by decide, by nofun, by nofun⟩

/-- Two equations whose texts are not mistaken for each other, with the text `h` in front as a hash. -/
example : Apart (fun s => 'h' :: s) eqA eqC ∧ Apart (fun s => 'h' :: s) eqC eqA := by
  refine ⟨⟨?_, ?_⟩, ⟨?_, ?_⟩⟩ <;> simp [Positional, eqA, eqC]

/-- A hash that takes these two equations apart. -/
example : ∃ hash : List Arg → Str, Hashes hash ∧
    hash (eqA.items (fun s => 'h' :: s) (template ⟨true, []⟩) ".html".toList) ≠ hash (eqC.items (fun s => 'h' :: s) (template ⟨true, []⟩) ".html".toList) :=
  ⟨fun l => if l.head? = some (.text "x".toList) then "0123456789ab".toList else "ba9876543210".toList,
    fun l => by dsimp only; split <;> decide, by decide +kernel⟩

example : ∀ load, load "blue".toList = [("blue".toList, AVal.pos .string)] → eqA.tex (· = ' ') load =
    .ok "\\begin{alignat*}{2} %\n\\boldsymbol{\\textcolor{blue}{x &= y}}\n\\end{alignat*}".toList := by
  intro load h
  unfold Equation.tex
  have : eqA.attrs.get? "color".toList = some (.str "blue".toList) := by rfl
  rw [this]
  simp only [Option.map_some, h]
  rfl

example : ∀ env root templ hashtxt hash, (∀ l l', l.Perm l' → hash l = hash l') →
    eqA.image env root templ hashtxt hash ".html".toList = eqB.image env root templ hashtxt hash ".html".toList := by
  intro env root templ hashtxt hash hs
  refine C84_shared env root templ hashtxt hash hs "html".toList (by decide) eqA eqB eqA_plain.distinct eqA_plain.general ?_ rfl rfl ?_
  · decide
  · exact ⟨fun _ => .inr (by decide), fun _ => .inr (by decide)⟩

end Verif.EqImage
