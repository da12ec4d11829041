import Verif.Lemmas.PathsFind

/-! # Lemmas about output paths -/

namespace Verif.Paths

open Verif Verif.Utils

theorem splits_exists (n : Str) (hn : n ≠ []) : ∃ st e, Splits n st e := by
  rcases name_cases n with ⟨st, e, h⟩ | h
  · exact ⟨st, e, Or.inl h⟩
  · exact ⟨n, [], Or.inr ⟨rfl, hn, rfl, h⟩⟩

theorem dotted_dot (e : Str) : dotted ('.' :: e) = '.' :: e := by simp [dotted]

theorem rename_splits (d : Path) (n st e : Str) (h : Splits n st e) (f a x : Option Str)
    (hn : IsName (f.getD st ++ a.getD [] ++ dotted (x.getD ('.' :: e)))) :
    rename (child d n) f a x = child d (f.getD st ++ a.getD [] ++ dotted (x.getD ('.' :: e))) := by
  rcases h with ⟨rfl, h1, h2, h3⟩ | ⟨rfl, h1, rfl, h3⟩
  · exact rename_ext d st e h1 h2 h3 f a x hn
  · have e : dotted (x.getD ('.' :: [])) = dotted (x.getD []) := by
      cases x with
      | none => rfl
      | some y => rfl
    rw [e] at hn ⊢
    exact rename_noext d n h3 f a x hn

theorem dotted_ne (x : Str) : dotted x ≠ [] := by
  unfold dotted
  split
  · intro h; subst h; simp at *
  · simp

theorem slash_dotted (x : Str) (h : '/' ∉ x) : '/' ∉ dotted x := by
  unfold dotted
  split
  · exact h
  · simp [h]

theorem splits_slash (n st e : Str) (h : Splits n st e) (hn : '/' ∉ n) : '/' ∉ st ∧ '/' ∉ e := by
  rcases h with ⟨rfl, _⟩ | ⟨rfl, _, rfl, _⟩
  · simp only [List.mem_append, List.mem_cons, not_or] at hn
    exact ⟨hn.1, hn.2.2⟩
  · exact ⟨hn, by simp⟩

/-- The name of an output file is a name. -/
theorem outName (n st e : Str) (h : Splits n st e) (hn : IsName n) (a x : Option Str)
    (ha : '/' ∉ a.getD []) (hx : '/' ∉ x.getD []) :
    IsName (st ++ a.getD [] ++ dotted (x.getD ('.' :: e))) := by
  have hst : st ≠ [] := by rcases h with h | h <;> exact h.2.1
  have hs := splits_slash n st e h hn.2.2
  refine ⟨by simp [hst], ?_, ?_⟩
  · intro he
    have := congrArg List.length he
    have h1 : st.length ≠ 0 := by simpa using hst
    have h2 : (dotted (x.getD ('.' :: e))).length ≠ 0 := by simpa using dotted_ne _
    simp only [List.length_append, List.length_singleton] at this
    omega
  · simp only [List.mem_append, not_or]
    refine ⟨⟨hs.1, ha⟩, slash_dotted _ ?_⟩
    cases x with
    | none => simp [hs.2]
    | some y => simpa using hx

theorem pathParams_first (others : List Param) (ho : ∀ o ∈ others, o = .other) (p : PyPath) (rest : List Param) :
    pathParams (others ++ .path p :: rest) = p :: pathParams rest := by
  induction others with
  | nil => rfl
  | cons o os ih =>
    have := ho o (by simp)
    subst this
    exact ih (fun o h => ho o (by simp [h]))

theorem outSub_has (p : PyPath) (sub : Path) (h : HasSub p sub) : outSub p = some sub ∧ sub.abs = false := by
  cases h <;> simp [outSub, *]

theorem dirFor_parse (target : Option Str) (p : PyPath) (dir : Path) (h : DirFor target p dir) :
    parse (stripDots (outTarget target p)) = dir := by
  cases h with
  | named t p h1 h2 h3 =>
    simp only [outTarget, stripDots_clean t h2 h3]
    exact parse_name t h1
  | dotted t p h1 h2 h3 =>
    have : stripDots ('.' :: t) = t := by
      have := stripDots_clean t h2 h3
      unfold stripDots strip lstrip at this ⊢
      simpa using this
    simp only [outTarget, this, stripDots_clean t h2 h3]
    exact parse_name t h1
  | input tp h1 h2 => exact stripDots_target tp.target h1 h2
  | noneSource s => rfl
  | nonePlain q => rfl

/-- The subpath of an output file, for an input in the directory `d` with the output name `m`. -/
theorem generateOut_eq (env : Env) (hr : Good env.targetRoot) (hc : Good env.cachePath)
    (others rest : List Param) (ho : ∀ o ∈ others, o = .other) (p : PyPath) (d : Path) (n st e : Str)
    (hp : HasSub p (child d n)) (hd : Good d) (hn : IsName n) (hs : Splits n st e)
    (target : Option Str) (dir : Path) (hdir : DirFor target p dir) (a x : Option Str)
    (ha : '/' ∉ a.getD []) (hx : '/' ∉ x.getD []) (c m : Bool)
    (hm : (parse (env.mediaPath.getD [])).abs = false) :
    generateOut env (others ++ .path p :: rest) target a x c m =
      .ok (some ⟨if c then env.cachePath else env.targetRoot, dir,
        child (if m = true ∧ env.mediaPath.getD [] ≠ [] ∧ ¬ env.mediaPath.getD [] <+: toStr (child d n)
          then div (parse (env.mediaPath.getD [])) d else d)
          (st ++ a.getD [] ++ dotted (x.getD ('.' :: e)))⟩) := by
  obtain ⟨h1, h2⟩ := outSub_has p _ hp
  have hdr : d.abs = false := h2
  have hname := outName n st e hs hn a x ha hx
  have hroot : Good (if c then env.cachePath else env.targetRoot) := by split <;> assumption
  unfold generateOut
  rw [pathParams_first others ho p rest]
  simp only [h1]
  cases m with
  | false =>
    simp only [Bool.false_eq_true, if_false, ne_eq, not_true_eq_false, false_and]
    rw [rename_splits d n st e hs none a x hname]
    simp only [Option.getD_none]
    have hg := good_child d _ hd hname
    simp only [mkTarget, parse_toStr _ hg, parse_toStr _ hroot, dirFor_parse target p dir hdir]
    simp [child, hdr, Except.map]
  | true =>
    simp only [if_true, ne_eq, true_and, List.isPrefixOf_iff_prefix]
    by_cases hcond : ¬ env.mediaPath.getD [] = [] ∧ ¬ env.mediaPath.getD [] <+: toStr (child d n)
    · simp only [if_pos hcond]
      have e1 : div (parse (env.mediaPath.getD [])) (child d n) = child (div (parse (env.mediaPath.getD [])) d) n := by
        simp [div, child, hdr]
      have hg' := good_div (parse (env.mediaPath.getD [])) d (parse_good _) hd
      have hab : (div (parse (env.mediaPath.getD [])) d).abs = false := by simp [div, hdr, hm]
      rw [e1, rename_splits _ n st e hs none a x hname]
      simp only [Option.getD_none]
      have hg := good_child _ _ hg' hname
      simp only [mkTarget, parse_toStr _ hg, parse_toStr _ hroot, dirFor_parse target p dir hdir]
      simp [child, hab, Except.map]
    · simp only [if_neg hcond]
      rw [rename_splits d n st e hs none a x hname]
      simp only [Option.getD_none]
      have hg := good_child d _ hd hname
      simp only [mkTarget, parse_toStr _ hg, parse_toStr _ hroot, dirFor_parse target p dir hdir]
      simp [child, hdr, Except.map]

theorem child_inj (d d' : Path) (n n' : Str) (h : child d n = child d' n') : d = d' ∧ n = n' := by
  have h1 := congrArg parent h
  have h2 := congrArg name h
  rw [parent_child, parent_child] at h1
  rw [name_child, name_child] at h2
  exact ⟨h1, h2⟩

/-- The output name determines the stem. -/
theorem outName_inj (n st e n' st' e' : Str) (h : Splits n st e) (h' : Splits n' st' e') (a x : Option Str)
    (eq : st ++ a.getD [] ++ dotted (x.getD ('.' :: e)) = st' ++ a.getD [] ++ dotted (x.getD ('.' :: e'))) :
    st = st' ∧ (x = none → e = e') := by
  cases x with
  | some y =>
    simp only [Option.getD_some] at eq
    exact ⟨List.append_cancel_right (List.append_cancel_right eq), by simp⟩
  | none =>
    simp only [Option.getD_none, dotted_dot] at eq
    have hd : '.' ∉ e := by rcases h with h | h; exact h.2.2.2; rw [h.2.2.1]; simp
    have hd' : '.' ∉ e' := by rcases h' with h | h; exact h.2.2.2; rw [h.2.2.1]; simp
    have h1 := (lastDot_some _ (st ++ a.getD []) e).2 ⟨rfl, hd⟩
    have h2 := (lastDot_some _ (st' ++ a.getD []) e').2 ⟨rfl, hd'⟩
    rw [eq, h2] at h1
    simp only [Option.some.injEq, Prod.mk.injEq] at h1
    exact ⟨(List.append_cancel_right h1.1).symm, fun _ => h1.2.symm⟩

end Verif.Paths
