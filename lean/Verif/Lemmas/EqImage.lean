import Verif.Spec.EqImage
import Verif.Props.Mock
import Verif.Props.Attributes
import Verif.Lemmas.Lists
import Verif.Lemmas.Render

/-! # Lemmas for the images of equations -/

namespace Verif.EqImage

open Verif Verif.Attrs Verif.Attrs.Spec Verif.Formats Verif.Render Verif.Paths Verif.AddFile

theorem mem_attrArgs_pair (d : ADict) (k v : Str) : Arg.pair k v ∈ attrArgs d ↔ (k, AVal.str v) ∈ d := by
  unfold attrArgs toTuple
  rw [List.map_map, List.mem_map]
  constructor
  · rintro ⟨⟨k', v'⟩, h, e⟩
    cases v' with
    | str s => simp at e; obtain ⟨rfl, rfl⟩ := e; exact h
    | pos t => simp at e
  · intro h
    exact ⟨_, h, rfl⟩

theorem mem_attrArgs_text (d : ADict) (k : Str) : Arg.text k ∈ attrArgs d ↔ ∃ t, (k, AVal.pos t) ∈ d := by
  unfold attrArgs toTuple
  rw [List.map_map, List.mem_map]
  constructor
  · rintro ⟨⟨k', v'⟩, h, e⟩
    cases v' with
    | str s => simp at e
    | pos t => simp at e; subst e; exact ⟨t, h⟩
  · rintro ⟨t, h⟩
    exact ⟨_, h, rfl⟩

theorem path_not_mem_attrArgs (d : ADict) (p : PyPath) : Arg.path p ∉ attrArgs d := by
  unfold attrArgs toTuple
  rw [List.map_map, List.mem_map]
  rintro ⟨⟨k', v'⟩, h, e⟩
  cases v' <;> simp at e

theorem imageAttrs_nodup (e : Equation) (h : e.attrs.keys.Nodup) : e.imageAttrs.keys.Nodup := by
  unfold Equation.imageAttrs
  exact Dict.keys_set_nodup _ _ _ (Dict.keys_set_nodup _ _ _ (Dict.keys_set_nodup _ _ _ h))

theorem imageAttrs_get (e : Equation) (k : Str) (h1 : k ≠ "crop".toList) (h2 : k ≠ "offset".toList) (h3 : k ≠ "class".toList) :
    e.imageAttrs.get? k = e.attrs.get? k := by
  unfold Equation.imageAttrs
  rw [Dict.get?_set, if_neg (by first | exact h3 | exact Ne.symm h3), Dict.get?_set, if_neg (by first | exact h2 | exact Ne.symm h2),
    Dict.get?_set, if_neg (by first | exact h1 | exact Ne.symm h1)]

theorem imageAttrs_class (e : Equation) : e.imageAttrs.get? "class".toList =
    some (.str (if e.block || e.attrs.has "env".toList then "eq blockeq".toList else "eq".toList)) := by
  unfold Equation.imageAttrs
  rw [Dict.get?_set_self]

theorem own_not_suffixed (k : Str) (h : k ∈ ["crop".toList, "offset".toList, "class".toList]) : ¬ Suffixed trackedTargets k := by
  rw [← isTargetSpecific_false_iff _ trackedTargets_good]
  revert k
  decide

theorem mem_imageAttrs_keys (e : Equation) (k : Str) (h : k ∈ e.imageAttrs.keys) :
    k ∈ e.attrs.keys ∨ k ∈ ["crop".toList, "offset".toList, "class".toList] := by
  by_cases h1 : k = "crop".toList
  · right; simp [h1]
  by_cases h2 : k = "offset".toList
  · right; simp [h2]
  by_cases h3 : k = "class".toList
  · right; simp [h3]
  left
  rw [← Dict.get?_isSome_iff, imageAttrs_get e k h1 h2 h3] at h
  exact (Dict.get?_isSome_iff _ _).1 h

theorem imageAttrs_general (e : Equation) (h : ∀ k ∈ e.attrs.keys, ¬ Suffixed trackedTargets k) :
    ∀ k ∈ e.imageAttrs.keys, ¬ Suffixed trackedTargets k := by
  intro k hk
  rcases mem_imageAttrs_keys e k hk with h1 | h1
  · exact h k h1
  · exact own_not_suffixed k h1

theorem filter_dot (targets : List Str) (d : ADict) (a : Option (List Query)) (T : Str) :
    Attrs.filter targets d a (some ('.' :: T)) = Attrs.filter targets d a (some T) := by
  have : Attrs.stripDots ('.' :: T) = Attrs.stripDots T := by unfold Attrs.stripDots; simp
  unfold Attrs.filter
  simp only [Option.map_some, this]

/-- For usual attributes the filter for a target keeps all entries. -/
theorem mem_filter_plain (d : ADict) (hn : d.keys.Nodup) (hg : ∀ k ∈ d.keys, ¬ Suffixed trackedTargets k) (T : Str) (hT : T ∈ trackedTargets)
    (k : Str) (v : AVal) : (k, v) ∈ Attrs.filter trackedTargets d none (some ('.' :: T)) ↔ d.get? k = some v := by
  rw [filter_dot]
  have h := (C04_filter_all trackedTargets trackedTargets_good d hn T hT
    (fun k hk => by rw [stripAttr_not_suffixed _ _ (hg k hk)]; exact hg k hk)).2.1 k v
  rw [h]
  have hnone : d.get? (k ++ '.' :: T) = none := by
    rw [Dict.get?_eq_none_iff]
    exact fun hk => hg _ hk ⟨T, hT, k, rfl⟩
  have hv : valueFor d T k = d.get? k := by unfold valueFor; rw [hnone]
  rw [hv]
  constructor
  · exact fun h => h.2
  · intro h
    exact ⟨hg k ((Dict.get?_isSome_iff _ _).1 (by rw [h]; rfl)), h⟩

/-! ### The LaTeX depends on what is found -/

theorem filterMap_congr' {α β : Type} (f g : α → Option β) (l : List α) (h : ∀ a ∈ l, f a = g a) : l.filterMap f = l.filterMap g := by
  induction l with
  | nil => rfl
  | cons a l ih =>
    rw [List.filterMap_cons, List.filterMap_cons, h a (by simp), ih (fun b hb => h b (by simp [hb]))]

theorem nodup_of_keys (d : ADict) (h : d.keys.Nodup) : d.Nodup := by
  unfold Dict.keys at h
  exact (List.pairwise_map.1 h).imp (fun hab e => hab (by rw [e]))

theorem filter_congr (targets : List Str) (d d' : ADict) (attrs : List Query) (T : Str) (hT : Attrs.stripDots (Attrs.stripDots T) = Attrs.stripDots T)
    (h : ∀ q ∈ attrs, findItem targets d q (some T) = findItem targets d' q (some T)) :
    Attrs.filter targets d (some attrs) (some T) (sortByAttrs := true) = Attrs.filter targets d' (some attrs) (some T) (sortByAttrs := true) := by
  have hs : ∀ (d : ADict) (q : Query), findItem targets d q (some (Attrs.stripDots T)) = findItem targets d q (some T) := by
    intro d q
    unfold findItem
    simp only [Option.map_some, hT]
  unfold Attrs.filter
  simp only [Option.map_some, Option.getD_some, if_true]
  congr 2
  apply filterMap_congr'
  intro q hq
  rw [hs, hs]
  exact h q ((Lists.mem_uniq _ _).1 (List.mem_filter.1 hq).1)

theorem texEnv_congr (targets : List Str) (args opts : Table) (env : Str) (d d' : ADict) (c : Str) (b : Bool)
    (h : ∀ q ∈ (args.get? env).getD [] ++ (opts.get? env).getD [], findItem targets d q (some texTarget) = findItem targets d' q (some texTarget)) :
    texEnv targets args opts env d c b = texEnv targets args opts env d' c b := by
  have hT : Attrs.stripDots (Attrs.stripDots texTarget) = Attrs.stripDots texTarget := by decide
  have h1 : requiredStr targets args env d = requiredStr targets args env d' := by
    unfold requiredStr
    cases ha : args.get? env with
    | none => rfl
    | some a =>
      simp only
      rw [filter_congr targets d d' a texTarget hT (fun q hq => h q (by rw [ha]; simp [hq]))]
  have h2 : optionalStr targets opts env d true = optionalStr targets opts env d' true := by
    unfold optionalStr
    cases ha : opts.get? env with
    | none => rfl
    | some a =>
      simp only
      rw [filter_congr targets d d' a texTarget hT (fun q hq => h q (by rw [ha]; simp [hq]))]
  unfold texEnv
  rw [h1, h2]

theorem findItem_name_congr (targets : List Str) (d d' : ADict) (h : ∀ k, d.get? k = d'.get? k) (a : Str) (t : Option Str) :
    findItem targets d (.name a) t = findItem targets d' (.name a) t := by
  unfold findItem
  simp only [h]

theorem list_eq_of_one {α : Type} (l l' : List α) (hn : l.Nodup) (hn' : l'.Nodup) (h1 : ∀ a ∈ l, ∀ b ∈ l, a = b) (h : ∀ a, a ∈ l ↔ a ∈ l') :
    l = l' := by
  have hp : l.Perm l' := (List.perm_ext_iff_of_nodup hn hn').2 h
  match l, hn, h1 with
  | [], _, _ => exact (List.nil_perm.1 hp).symm
  | [a], _, _ => exact (List.singleton_perm.1 hp).symm ▸ rfl
  | a :: b :: l, hn, h1 =>
    have := h1 a (by simp) b (by simp)
    simp [this] at hn

theorem findItem_pos_congr (targets : List Str) (d d' : ADict) (hn : d.keys.Nodup) (hn' : d'.keys.Nodup) (h : ∀ k, d.get? k = d'.get? k)
    (pt : PType) (hany : pt ≠ .any) (one : ∀ k k', (k, AVal.pos pt) ∈ d → (k', AVal.pos pt) ∈ d → k = k') (t : Option Str) :
    findItem targets d (.pos pt) t = findItem targets d' (.pos pt) t := by
  have hmem : ∀ kv, kv ∈ d ↔ kv ∈ d' := by
    rintro ⟨k, v⟩
    constructor
    · intro hk; exact Dict.mem_of_get? _ _ _ (by rw [← h]; exact Dict.get?_of_mem _ hn _ _ hk)
    · intro hk; exact Dict.mem_of_get? _ _ _ (by rw [h]; exact Dict.get?_of_mem _ hn' _ _ hk)
  have e : ∀ p : Str × AVal → Bool, (∀ k s, p (k, .str s) = false) → (∀ k t, p (k, .pos t) = t.isSub pt) → d.filter p = d'.filter p := by
    intro p p1 p2
    have hcls : ∀ kv ∈ d.filter p, ∃ k, kv = (k, AVal.pos pt) ∧ (k, AVal.pos pt) ∈ d := by
      rintro ⟨k, v⟩ hk
      rw [List.mem_filter] at hk
      cases v with
      | str s => rw [p1] at hk; exact absurd hk.2 (by simp)
      | pos t' =>
        rw [p2] at hk
        have : t' = pt := by simpa [PType.isSub, hany] using hk.2
        subst this
        exact ⟨k, rfl, hk.1⟩
    apply list_eq_of_one
    · exact (nodup_of_keys d hn).filter _
    · exact (nodup_of_keys d' hn').filter _
    · intro a ha b hb
      obtain ⟨k, rfl, hk⟩ := hcls a ha
      obtain ⟨k', rfl, hk'⟩ := hcls b hb
      rw [one k k' hk hk']
    · intro kv
      rw [List.mem_filter, List.mem_filter, hmem]
  unfold findItem
  simp only
  rw [e]
  · intros; rfl
  · intros; rfl

/-- The tables ask for no positional value of any class. -/
theorem tables_any (env : Str) (q : Query) (h : q ∈ ((posTable texEnvArguments).get? env).getD [] ++ (texEnvOptionals.get? env).getD []) :
    q ≠ .pos .any := by
  have h1 : ∀ (t : Table), (∀ kv ∈ t, Query.pos .any ∉ kv.2) → Query.pos .any ∉ (t.get? env).getD [] := by
    intro t ht
    cases hg : t.get? env with
    | none => simp
    | some l => exact ht (env, l) (Dict.mem_of_get? _ _ _ hg)
  rintro rfl
  rw [List.mem_append] at h
  rcases h with h | h
  · exact h1 _ (by decide) h
  · exact h1 _ (by decide) h

/-- The environments for mathematics take at most a number. -/
theorem tables_maths (env : Str) (he : env ∈ ["align".toList, "align*".toList, "alignat".toList, "alignat*".toList]) (q : Query)
    (h : q ∈ ((posTable texEnvArguments).get? env).getD [] ++ (texEnvOptionals.get? env).getD []) : q = .pos .int := by
  have : ∀ env ∈ ["align".toList, "align*".toList, "alignat".toList, "alignat*".toList],
      ∀ q ∈ ((posTable texEnvArguments).get? env).getD [] ++ (texEnvOptionals.get? env).getD [], q = .pos .int := by decide +kernel
  exact this env he q h

theorem eqEnv_congr (d d' : ADict) (h : ∀ k, d.get? k = d'.get? k) : eqEnv d = eqEnv d' := by
  unfold eqEnv Attrs.get
  rw [findItem_name_congr _ d d' h]

theorem has_congr (d d' : ADict) (h : ∀ k, d.get? k = d'.get? k) (k : Str) : d.has k = d'.has k := by
  unfold Dict.has
  rw [h]

/-- Equations with the same entries have the same LaTeX. -/
theorem tex_congr (sp : Char → Bool) (load : Str → ADict) (posType : Str → PType) (a b : Equation) (ha : Plain posType a) (hb : Plain posType b)
    (hname : a.name = "termb".toList ↔ b.name = "termb".toList) (hc : a.content = b.content) (h : ∀ k, a.attrs.get? k = b.attrs.get? k)
    (hblock : (a.block || a.attrs.has "env".toList) = (b.block || b.attrs.has "env".toList)) : a.tex sp load = b.tex sp load := by
  have hmem : ∀ kv, kv ∈ a.attrs → kv ∈ b.attrs := by
    rintro ⟨k, v⟩ hk
    exact Dict.mem_of_get? _ _ _ (by rw [← h]; exact Dict.get?_of_mem _ ha.distinct _ _ hk)
  have henv : ∀ (e c : Str), eqEnv a.attrs = .ok e →
      texEnv trackedTargets (posTable texEnvArguments) texEnvOptionals e a.attrs c true =
        texEnv trackedTargets (posTable texEnvArguments) texEnvOptionals e b.attrs c true := by
    intro e c he
    apply texEnv_congr
    intro q hq
    cases q with
    | name n => exact findItem_name_congr _ _ _ h _ _
    | pos pt =>
      refine findItem_pos_congr _ _ _ ha.distinct hb.distinct h pt (fun hp => tables_any e _ hq (by rw [hp])) ?_ _
      intro k k' hk hk'
      rcases ha.one k k' pt hk hk' with h1 | ⟨h1, h2⟩
      · exact h1
      · exfalso
        apply h1
        have hmaths : e ∈ ["align".toList, "align*".toList, "alignat".toList, "alignat*".toList] := by
          unfold eqEnv at he
          have hno : a.attrs.get? "env.tex".toList = none := by
            rw [Dict.get?_eq_none_iff]
            intro hk
            exact ha.general _ hk ⟨"tex".toList, by decide, "env".toList, by decide⟩
          have hfind : findItem trackedTargets a.attrs (.name "env".toList) (some ".tex".toList) =
              (a.attrs.get? "env".toList).map (fun v => ("env".toList, v)) := by
            unfold findItem
            have e1 : ("env".toList ++ '.' :: Attrs.stripDots ".tex".toList : Str) = "env.tex".toList := by decide
            simp only [Option.map_some, Option.bind_some]
            rw [e1, hno]
            rfl
          unfold Attrs.get at he
          rw [hfind] at he
          cases hg : a.attrs.get? "env".toList with
          | none => rw [hg] at he; simp only [Option.map_none] at he; cases he; decide
          | some v =>
            rw [hg] at he
            obtain ⟨s, hs, rfl⟩ := h2 v hg
            have : ∀ s ∈ ["align", "align*", "alignat", "alignat*"], stripAttr trackedTargets s.toList = s.toList ∧ s.toList ≠ [] ∧
                s.toList ∈ ["align".toList, "align*".toList, "alignat".toList, "alignat*".toList] := by decide
            obtain ⟨t1, t2, t3⟩ := this s hs
            simp only [Option.map_some, t1, if_neg t2] at he
            cases he
            exact t3
        have := tables_maths e hmaths _ hq
        injection this
  have hname' : (decide (a.name = "termb".toList)) = decide (b.name = "termb".toList) := decide_eq_decide.2 hname
  have hens : ∀ d c, cmd "ensuremath".toList d c = cmd "ensuremath".toList [] c := by
    intro d c
    rw [cmd_eq _ d _ (by decide) (by decide), cmd_eq _ [] _ (by decide) (by decide)]
  unfold Equation.tex eqTex
  rw [hc, h "color".toList, has_congr _ _ h "bold".toList, hname', hblock]
  congr 1
  funext c
  congr 1
  funext c
  simp only [Bool.false_eq_true, if_false]
  split
  · rw [← eqEnv_congr _ _ h]
    cases he : eqEnv a.attrs with
    | error e => rfl
    | ok e =>
      show Except.mapError _ _ = Except.mapError _ _
      rw [henv e _ he]
  · rw [hens a.attrs, hens b.attrs]

/-! ### The path of the image -/

theorem eq_splits : Splits "eq.tex".toList "eq".toList "tex".toList := .inl ⟨by decide, by decide, by decide, by decide⟩

/-- The path for a file whose name begins with `eq`. -/
theorem media_placed (env : Env) (henv : Good env.targetRoot) (hcache : Good env.cachePath) (hm : env.mediaPath = some "media".toList)
    (r : Path) (st e x : Str) (hst : '/' ∉ st) (hs : Splits (st ++ '.' :: e) st e) (he : '/' ∉ e) (heq : ∃ s, st = 'e' :: 'q' :: s) (t : Str) (ht : IsName t)
    (ht1 : t.head? ≠ some '.') (ht2 : t.getLast? ≠ some '.') (hx : '/' ∉ x) (c : Bool) :
    generateOut env [.path (.source ⟨r, ⟨false, [st ++ '.' :: e]⟩⟩)] (some ('.' :: t)) none (some ('.' :: x)) c true =
      .ok (some ⟨if c then env.cachePath else env.targetRoot, ⟨false, [t]⟩, ⟨false, ["media".toList, st ++ '.' :: x]⟩⟩) := by
  obtain ⟨s, rfl⟩ := heq
  have h := C34_placed env henv hcache [] [] (by simp) (.source ⟨r, ⟨false, ['e' :: 'q' :: s ++ '.' :: e]⟩⟩) ⟨false, []⟩
    ('e' :: 'q' :: s ++ '.' :: e) ('e' :: 'q' :: s) e (.source _ _ rfl) (by intro c hc; cases hc)
    ⟨by simp, by simp, by simp only [List.mem_append, List.mem_cons, not_or]; exact ⟨by simpa using hst, by decide, he⟩⟩ hs
    (some ('.' :: t)) ⟨false, [t]⟩ (.dotted _ _ ht ht1 ht2) none (some ('.' :: x)) (by simp) (by simpa using hx) c true (by rw [hm]; decide)
  have hpre : ¬ "media".toList <+: toStr (child ⟨false, []⟩ ('e' :: 'q' :: s ++ '.' :: e)) := by
    intro hp
    obtain ⟨w, hw⟩ := hp
    have h1 : toStr (child ⟨false, []⟩ ('e' :: 'q' :: s ++ '.' :: e)) = 'e' :: 'q' :: s ++ '.' :: e := by
      simp [toStr, child, join]
    rw [h1] at hw
    have := congrArg List.head? hw
    simp at this
  rw [hm] at h
  have hcond : true = true ∧ (some "media".toList).getD [] ≠ [] ∧
      ¬ (some "media".toList).getD [] <+: toStr (child ⟨false, []⟩ ('e' :: 'q' :: s ++ '.' :: e)) := ⟨rfl, by decide, hpre⟩
  rw [if_pos hcond] at h
  rw [List.nil_append] at h
  have hd : div (parse ((some "media".toList).getD [])) ⟨false, []⟩ = ⟨false, ["media".toList]⟩ := by decide
  have hx2 : dotted ('.' :: x) = '.' :: x := by simp [dotted]
  rw [h, hd]
  simp only [Option.getD_none, Option.getD_some, List.append_nil, hx2]
  rfl

/-- The path of an image, for a template of the name `eq.tex`. -/
theorem imageOut_eq (env : Env) (henv : Good env.targetRoot) (hcache : Good env.cachePath) (hm : env.mediaPath = some "media".toList)
    (root : Path) (hr : Good root) (dir : Path) (hash : Str) (hh : hash ≠ []) (hh1 : '.' ∉ hash) (hh2 : '/' ∉ hash) (t : Str) (ht : IsName t)
    (ht1 : t.head? ≠ some '.') (ht2 : t.getLast? ≠ some '.') (useCache : Bool) :
    texOut env root ⟨dir, ⟨false, ["eq.tex".toList]⟩⟩ hash ('.' :: t) =
      .ok (some ⟨env.cachePath, ⟨false, [t]⟩, ⟨false, ["media".toList, "eq_".toList ++ hash ++ ".tex".toList]⟩⟩) ∧
    imageOut env root ⟨dir, ⟨false, ["eq.tex".toList]⟩⟩ hash ('.' :: t) useCache =
      .ok (some ⟨if useCache then env.cachePath else env.targetRoot, ⟨false, [t]⟩,
        ⟨false, ["media".toList, "eq_".toList ++ hash ++ ".svg".toList]⟩⟩) := by
  have hspl : ∀ e : Str, e ≠ [] → '.' ∉ e → Splits ("eq_".toList ++ hash ++ '.' :: e) ("eq_".toList ++ hash) e :=
    fun e h1 h2 => .inl ⟨rfl, by simp, h1, h2⟩
  have hsl : '/' ∉ "eq_".toList ++ hash := by simp [hh2]
  have hnm : ∀ e : Str, '/' ∉ e → IsName ("eq_".toList ++ hash ++ '.' :: e) := by
    intro e he
    refine ⟨by simp, by simp, ?_⟩
    simp [hh2, he]
  have h1 : texOut env root ⟨dir, ⟨false, ["eq.tex".toList]⟩⟩ hash ('.' :: t) =
      .ok (some ⟨env.cachePath, ⟨false, [t]⟩, ⟨false, ["media".toList, "eq_".toList ++ hash ++ ".tex".toList]⟩⟩) := by
    have hn := Mock.C59_name_partial root hr [.source ⟨dir, ⟨false, ["eq.tex".toList]⟩⟩] none ⟨false, []⟩ (by intro c hc; cases hc) rfl
      "eq.tex".toList "eq".toList "tex".toList hash "render".toList ⟨by decide, by decide, by decide⟩ eq_splits (by decide)
      (.source [] [] _ _ _ (by simp)) hh hh1 hh2 ⟨by decide, by decide, by decide⟩
    have hp := media_placed env henv hcache hm root ("eq_".toList ++ hash) "render".toList "tex".toList hsl
      (hspl _ (by decide) (by decide)) (by decide) ⟨_, rfl⟩ t ht ht1 ht2 (by decide) true
    unfold texOut Mock.renderOut
    have : (".render".toList : Str) = '.' :: "render".toList := by decide
    rw [this, hn]
    exact hp
  refine ⟨h1, ?_⟩
  have hbase : ∀ x c, '/' ∉ x → generateOut env [.path (.source ⟨dir, ⟨false, ["eq.tex".toList]⟩⟩)] (some ('.' :: t)) none (some ('.' :: x)) c true =
      .ok (some ⟨if c then env.cachePath else env.targetRoot, ⟨false, [t]⟩, ⟨false, ["media".toList, "eq".toList ++ '.' :: x]⟩⟩) :=
    fun x c hx => media_placed env henv hcache hm dir "eq".toList "tex".toList x (by decide) eq_splits (by decide) ⟨_, rfl⟩ t ht ht1 ht2 hx c
  have hct : CleanTarget (⟨false, [t]⟩ : Path) := by
    have : toStr (⟨false, [t]⟩ : Path) = t := by simp [toStr, join]
    exact ⟨rfl, .inr ⟨by rw [this]; exact ht1, by rw [this]; exact ht2⟩⟩
  have hgt : Good (⟨false, [t]⟩ : Path) := by intro c hc; simp at hc; subst hc; exact ht
  have hgm : Good (⟨false, ["media".toList]⟩ : Path) := by intro c hc; simp at hc; subst hc; exact ⟨by decide, by decide, by decide⟩
  have hnamed : ∀ (x e : Str) (c : Bool) (r tg : Path), IsName ("eq".toList ++ '.' :: x) → '/' ∉ x → '.' ∉ x → x ≠ [] → '/' ∉ e → '.' ∉ e → e ≠ [] →
      named env ⟨dir, ⟨false, ["eq.tex".toList]⟩⟩ ('.' :: t) ('.' :: x) c
        (some ⟨r, tg, ⟨false, ["media".toList, "eq_".toList ++ hash ++ '.' :: e]⟩⟩) =
      .ok (some ⟨if c then env.cachePath else env.targetRoot, ⟨false, [t]⟩, ⟨false, ["media".toList, "eq_".toList ++ hash ++ '.' :: x]⟩⟩) := by
    intro x e c r tg hx hx1 hx2 hx3 he1 he2 he3
    have hroot : Good (if c then env.cachePath else env.targetRoot) := by split <;> assumption
    unfold named
    rw [hbase x c hx1]
    have e1 := C32_use_name_target (if c then env.cachePath else env.targetRoot) ⟨false, [t]⟩ ⟨false, ["media".toList]⟩ ("eq".toList ++ '.' :: x)
      ("eq_".toList ++ hash ++ '.' :: e) hroot hgt hct hgm rfl hx.1 (hnm e he1)
    have e2 := C32_use_suffix_target (if c then env.cachePath else env.targetRoot) ⟨false, [t]⟩ ⟨false, ["media".toList]⟩
      ("eq_".toList ++ hash ++ '.' :: e) ("eq_".toList ++ hash) e ('.' :: x) hroot hgt hct hgm rfl (hnm e he1) (hspl e he3 he2)
      (by simp [hx1]) (.inr rfl) (by simp [hx3]) (by simp)
    have e3 : name (⟨false, ["media".toList, "eq_".toList ++ hash ++ '.' :: e]⟩ : Path) = "eq_".toList ++ hash ++ '.' :: e := by rfl
    show (do
      let out ← TargetPath.useName ⟨if c then env.cachePath else env.targetRoot, ⟨false, [t]⟩, child ⟨false, ["media".toList]⟩ ("eq".toList ++ '.' :: x)⟩
        (name (⟨false, ["media".toList, "eq_".toList ++ hash ++ '.' :: e]⟩ : Path))
      let out ← out.useSuffix ('.' :: x)
      return some out) = _
    rw [e3, e1]
    show (do
      let out ← TargetPath.useSuffix ⟨if c then env.cachePath else env.targetRoot, ⟨false, [t]⟩, child ⟨false, ["media".toList]⟩
        ("eq_".toList ++ hash ++ '.' :: e)⟩ ('.' :: x)
      return some out) = _
    rw [e2]
    rfl
  unfold imageOut
  rw [h1]
  have s1 : (".pdf".toList : Str) = '.' :: "pdf".toList := by decide
  have s2 : (".svg".toList : Str) = '.' :: "svg".toList := by decide
  have s3 : (".tex".toList : Str) = '.' :: "tex".toList := by decide
  have n1 := hnamed "pdf".toList "tex".toList true env.cachePath ⟨false, [t]⟩ ⟨by decide, by decide, by decide⟩ (by decide) (by decide) (by decide)
    (by decide) (by decide) (by decide)
  have n2 := hnamed "svg".toList "pdf".toList useCache env.cachePath ⟨false, [t]⟩ ⟨by decide, by decide, by decide⟩ (by decide) (by decide) (by decide)
    (by decide) (by decide) (by decide)
  show (do
    let pdf ← named env ⟨dir, ⟨false, ["eq.tex".toList]⟩⟩ ('.' :: t) ".pdf".toList true _
    named env ⟨dir, ⟨false, ["eq.tex".toList]⟩⟩ ('.' :: t) ".svg".toList useCache pdf) = _
  rw [s1, s2, s3, n1]
  exact n2

end Verif.EqImage
