import Verif.Spec.Render
import Verif.Props.Formats
import Verif.Lemmas.Strings

/-!
# Lemmas on the rendering of tags
-/

set_option linter.unusedSimpArgs false
set_option linter.unusedVariables false

namespace Verif.Render

open Verif Verif.Attrs Verif.Attrs.Spec Verif.Formats Verif.Render.Spec

theorem filter_nil (d : ADict) (target : Option Str) (sort : Bool) :
    Attrs.filter trackedTargets d (some []) target sort = [] := by
  have h1 : (if sort = true then Lists.uniq id ([] : List Query) else sortedBy (order d) (Lists.uniq id [])) = [] := by
    cases sort <;> rfl
  unfold Attrs.filter
  simp only [Option.getD_some, h1]
  rfl

/-- Commands without arguments. -/
theorem cmd_eq (c : Str) (d : ADict) (x : Str) (h : texCmdArguments.get? c = some []) (h2 : c ∉ texCmdOptionals.keys) :
    cmd c d x = .ok ('\\' :: c ++ '{' :: x ++ ['}']) := by
  have h1 : (posTable texCmdArguments).get? c = some [] := by unfold posTable; rw [get?_map, h]; rfl
  have h3 : (nameTable texCmdOptionals).get? c = none := by
    unfold nameTable; rw [get?_map, (Dict.get?_eq_none_iff _ _).2 h2]; rfl
  unfold cmd texCmd requiredStr optionalStr
  rw [h1, h3]
  simp [Dict.has, h1, filter_nil, texArguments, Except.mapError]

theorem inMath_eq (math : Bool) (x : Str) : ∃ y, inMath math x = .ok y ∧ InMath math x y := by
  unfold inMath
  cases math with
  | false =>
    refine ⟨_, ?_, rfl⟩
    rw [if_pos (by rfl), cmd_eq _ _ _ rfl (by decide)]
    simp
  | true => exact ⟨x, rfl, rfl⟩

/-- The option of a figure. -/
theorem filter_string (d : ADict) : Attrs.filter trackedTargets d (some [.pos .string]) (some texTarget) true = [] ∨
    ∃ k t, (k, AVal.pos t) ∈ d ∧
      Attrs.filter trackedTargets d (some [.pos .string]) (some texTarget) true = [(stripAttr trackedTargets k, AVal.pos t)] := by
  have hst : stripDots texTarget = texTarget := by decide
  unfold Attrs.filter
  simp only [Option.getD_some, Option.map_some, if_true, hst]
  have hu : Lists.uniq id [Query.pos .string] = [Query.pos .string] := rfl
  have hr : removeAttrs trackedTargets [Query.pos .string] (some texTarget) = [] := rfl
  rw [hu, hr]
  simp only [List.not_mem_nil, not_false_eq_true, decide_true, List.filter_cons_of_pos, List.filter_nil]
  cases hf : findItem trackedTargets d (.pos .string) (some texTarget) with
  | none => left; simp [hf, Dict.update, Attrs.strip, Dict.keys]
  | some kv =>
    right
    obtain ⟨hm, t, ht, _⟩ := findItem_pos_mem _ _ _ _ _ hf
    obtain ⟨k, v⟩ := kv
    simp only at ht
    subst ht
    refine ⟨k, t, hm, ?_⟩
    simp only [hf, List.filterMap_cons, List.filterMap_nil]
    have hd : Dict.update ([] : ADict) [(k, AVal.pos t)] = [(k, .pos t)] := rfl
    rw [hd]
    unfold Attrs.strip
    simp only [Dict.keys, List.map_cons, List.map_nil]
    by_cases hs : isTargetSpecific trackedTargets k = true
    · have hne : k ≠ stripAttr trackedTargets k := by simpa [isTargetSpecific] using hs
      simp [hs, hne, Dict.set]
    · simp [hs, Dict.set]

theorem stripAttr_parts (k : Str) : ∃ x, k = stripAttr trackedTargets k ++ x ∧ (x = [] ∨ ∃ T ∈ trackedTargets, x = '.' :: T) := by
  by_cases h : Suffixed trackedTargets k
  · obtain ⟨t, ht, n, rfl⟩ := h
    rw [stripAttr_suffixed _ trackedTargets_good _ _ ht]
    exact ⟨_, rfl, Or.inr ⟨t, ht, rfl⟩⟩
  · rw [stripAttr_not_suffixed _ _ h]
    exact ⟨[], by simp, Or.inl rfl⟩

theorem onLines (x : Str) : OnLines x (trailNewline (leadNewline x)) := by
  obtain ⟨a, b, e1, e2, e3, e4, e5⟩ := padded x
  exact ⟨a, b, e1, e2, e3, e4, e5⟩

/-- Environments without arguments. -/
theorem env_plain (e : Str) (d : ADict) (x : Str) (h : texEnvArguments.get? e = some []) (h2 : texEnvOptionals.get? e = none) :
    ∃ y, OnLines x y ∧ env e d x = .ok ("\n\\begin{".toList ++ e ++ "}".toList ++ [] ++ y ++ "\\end{".toList ++ e ++ "}\n".toList) := by
  have h1 : (posTable texEnvArguments).get? e = some [] := by unfold posTable; rw [get?_map, h]; rfl
  refine ⟨_, onLines x, ?_⟩
  unfold env texEnv requiredStr optionalStr
  rw [h1, h2]
  simp [Dict.has, h1, filter_nil, texArguments, Except.mapError]

theorem env_figure (k : Kind) (e : Str) (d : ADict) (x : Str) (hk : k ∈ [Kind.marginfigure, .figure, .fullfigure])
    (h : texEnvArguments.get? e = none) (h2 : texEnvOptionals.get? e = some [.pos .string]) :
    ∃ o y, OnLines x y ∧ OptionOf k d o ∧
      env e d x = .ok ("\n\\begin{".toList ++ e ++ "}".toList ++ o ++ y ++ "\\end{".toList ++ e ++ "}\n".toList) := by
  have h1 : (posTable texEnvArguments).get? e = none := by unfold posTable; rw [get?_map, h]; rfl
  have hn : ((posTable texEnvArguments).has e) = false := by simp [Dict.has, h1]
  have hy : Dict.has texEnvOptionals e = true := by simp [Dict.has, h2]
  rcases filter_string d with hf | ⟨key, t, hm, hf⟩
  · refine ⟨[], _, onLines x, Or.inl rfl, ?_⟩
    unfold env texEnv requiredStr optionalStr
    rw [h1, h2]
    simp [hn, hy, hf, texOptionals, Except.mapError]
  · obtain ⟨z, hz, hz'⟩ := stripAttr_parts key
    refine ⟨'[' :: stripAttr trackedTargets key ++ [']'], _, onLines x,
      Or.inr ⟨hk, _, z, t, hz ▸ hm, hz', rfl⟩, ?_⟩
    unfold env texEnv requiredStr optionalStr
    rw [h1, h2]
    simp [hn, hy, hf, texOptionals, Except.mapError, List.intercalate]

/-! ### Splitting -/

/-- The first piece of a split. -/
theorem split_first (sep s : Str) (hs : sep ≠ []) (p : Str) (ps : List Str) (h : split sep s = p :: ps) :
    (ps = [] → s = p ∧ ¬ sep <:+: s) ∧
    (ps ≠ [] → ∃ r, s = p ++ (sep ++ r) ∧ split sep r = ps ∧ ∀ x y, p = x ++ y → y ≠ [] → ¬ sep <+: y ++ (sep ++ r)) := by
  unfold split at *
  induction s generalizing p ps with
  | nil =>
    simp [splitGo] at h
    obtain ⟨rfl, rfl⟩ := h
    refine ⟨fun _ => ⟨rfl, ?_⟩, fun h => absurd rfl h⟩
    intro hi
    exact hs (List.eq_nil_of_infix_nil hi)
  | cons c t ih =>
    simp only [splitGo] at h
    split at h
    · rename_i hp
      obtain ⟨r, hr⟩ := List.isPrefixOf_iff_prefix.1 hp
      simp only [List.cons.injEq] at h
      obtain ⟨rfl, rfl⟩ := h
      refine ⟨fun he => absurd he (splitGo_ne_nil _ _ _), fun _ => ⟨r, by simp [hr], ?_, ?_⟩⟩
      · cases sep with
        | nil => exact absurd rfl hs
        | cons d sep =>
          simp only [List.cons_append, List.cons.injEq] at hr
          obtain ⟨rfl, rfl⟩ := hr
          simpa using (splitGo_skip (d :: sep) r sep).symm
      · intro x y hxy hy
        simp at hxy
        exact absurd hxy.2 hy
    · rename_i hp
      have hp' : ¬ sep <+: c :: t := fun h => hp (List.isPrefixOf_iff_prefix.2 h)
      cases hsp : splitGo sep t 0 with
      | nil => exact absurd hsp (splitGo_ne_nil _ _ _)
      | cons q qs =>
        rw [hsp] at h
        simp only [List.cons.injEq] at h
        obtain ⟨rfl, rfl⟩ := h
        obtain ⟨h1, h2⟩ := ih q qs hsp
        constructor
        · intro he
          obtain ⟨rfl, hn⟩ := h1 he
          refine ⟨rfl, ?_⟩
          intro hi
          rcases List.infix_cons_iff.1 hi with h | h
          · exact hp' h
          · exact hn h
        · intro he
          obtain ⟨r, rfl, hr, hx⟩ := h2 he
          refine ⟨r, by simp, hr, ?_⟩
          intro x y hxy hy
          cases x with
          | nil =>
            simp only [List.nil_append] at hxy
            subst hxy
            exact hp'
          | cons x0 x =>
            simp only [List.cons_append, List.cons.injEq] at hxy
            exact hx x y hxy.2 hy

theorem amp_prefix (y r : Str) (hy : y ≠ []) : "&&".toList <+: y ++ ("&&".toList ++ r) ↔ "&&".toList <+: y ++ ['&'] := by
  cases y with
  | nil => exact absurd rfl hy
  | cons a y =>
    cases y with
    | nil => simp
    | cons b y => simp

theorem split_halves (s a b : Str) : split "&&".toList s = [a, b] ↔ Halves s a b := by
  have key : ∀ (a r : Str), (∀ x y, a = x ++ y → y ≠ [] → ¬ "&&".toList <+: y ++ ("&&".toList ++ r)) ↔
      ¬ "&&".toList <:+: a ++ ['&'] := by
    intro a r
    constructor
    · rintro h ⟨u, v, he⟩
      -- the occurrence starts in `a`
      rw [List.append_assoc] at he
      rcases List.append_eq_append_iff.1 he with ⟨w, rfl, hw⟩ | ⟨w, rfl, hw⟩
      · cases w with
        | nil => simp at hw
        | cons c w =>
          refine h u (c :: w) rfl (by simp) ?_
          rw [amp_prefix _ _ (by simp), ← hw]
          simp
      · have := congrArg List.length hw
        simp at this
        omega
    · rintro h x y rfl hy hpre
      rw [amp_prefix _ _ hy] at hpre
      apply h
      rw [List.append_assoc]
      exact hpre.isInfix.trans (List.suffix_append _ _).isInfix
  constructor
  · intro h
    obtain ⟨r, h1, h2, h3⟩ := (split_first _ s (by simp) a [b] h).2 (by simp)
    obtain ⟨h4, h5⟩ := (split_first _ r (by simp) b [] h2).1 rfl
    subst h4
    exact ⟨by rw [h1, List.append_assoc], (key a r).1 h3, h5⟩
  · rintro ⟨h1, h2, h3⟩
    rw [h1, List.append_assoc, split_append _ _ _ (by simp) ((key a b).2 h2), split_of_not_infix _ _ (by simp) h3]

theorem strip_trimmed (sp : Char → Bool) (s : Str) : Trimmed sp s (strip sp s) := by
  unfold strip rstrip lstrip
  generalize hm : s.dropWhile sp = m
  have h1 : s.takeWhile sp ++ m = s := by rw [← hm]; exact List.takeWhile_append_dropWhile
  have h2 : (m.reverse.takeWhile sp ++ m.reverse.dropWhile sp) = m.reverse := List.takeWhile_append_dropWhile
  have h3 : (m.reverse.dropWhile sp).reverse ++ (m.reverse.takeWhile sp).reverse = m := by
    have := congrArg List.reverse h2
    rw [List.reverse_append, List.reverse_reverse] at this
    exact this
  refine ⟨s.takeWhile sp, (m.reverse.takeWhile sp).reverse, ?_, ?_, ?_, ?_, ?_⟩
  · rw [List.append_assoc, h3, h1]
  · intro c hc; exact List.all_eq_true.1 List.all_takeWhile c hc
  · intro c hc; exact List.all_eq_true.1 List.all_takeWhile c (List.mem_reverse.1 hc)
  · intro c hc
    have hne : ∀ x, m.head? = some x → sp x = false := by
      intro x hx
      rw [← hm] at hx
      have := List.head?_dropWhile_not sp s
      rw [hx] at this
      simpa using this
    apply hne
    rw [← h3, List.head?_append, hc]
    rfl
  · intro c hc
    rw [List.getLast?_reverse] at hc
    have := List.head?_dropWhile_not sp m.reverse
    rw [hc] at this
    simpa using this

theorem supsubParts_eq (sp : Char → Bool) (s : Str) :
    (∀ a' b', supsubParts sp s = some (a', b') → ∃ a b, Halves s a b ∧ Trimmed sp a a' ∧ Trimmed sp b b') ∧
    (supsubParts sp s = none → ∀ a b, ¬ Halves s a b) := by
  unfold supsubParts
  constructor
  · intro a' b' h
    split at h
    · rename_i a b hs
      simp only [Option.some.injEq, Prod.mk.injEq] at h
      obtain ⟨rfl, rfl⟩ := h
      exact ⟨a, b, (split_halves s a b).1 hs, strip_trimmed sp a, strip_trimmed sp b⟩
    · simp at h
  · intro h a b hh
    rw [(split_halves s a b).2 hh] at h
    simp at h

/-! ### Equations -/

theorem mem_set {d : ADict} {k : Str} {v : AVal} {e : Str × AVal} (h : e ∈ d.set k v) : e = (k, v) ∨ e ∈ d := by
  induction d with
  | nil => simp [Dict.set] at h; exact Or.inl h
  | cons a d ih =>
    unfold Dict.set at h
    split at h
    · rename_i hk
      simp only [List.mem_cons] at h ⊢
      rcases h with h | h
      · rw [hk] at h; exact Or.inl h
      · exact Or.inr (Or.inr h)
    · simp only [List.mem_cons] at h ⊢
      rcases h with h | h
      · exact Or.inr (Or.inl h)
      · rcases ih h with h | h
        · exact Or.inl h
        · exact Or.inr (Or.inr h)

theorem mem_update {l d : ADict} {e : Str × AVal} (h : e ∈ d.update l) : e ∈ l ∨ e ∈ d := by
  unfold Dict.update at h
  induction l generalizing d with
  | nil => exact Or.inr h
  | cons a l ih =>
    simp only [List.foldl_cons] at h
    rcases ih h with h | h
    · exact Or.inl (by simp [h])
    · rcases mem_set h with h | h
      · exact Or.inl (by simp [h])
      · exact Or.inr h

theorem mem_strip {d : ADict} {e : Str × AVal} (h : e ∈ Attrs.strip trackedTargets d) :
    ∃ k, (k, e.2) ∈ d ∧ e.1 = stripAttr trackedTargets k := by
  unfold Attrs.strip at h
  have key : ∀ (l acc : ADict), e ∈ l.foldl (fun acc kv => acc.set (stripAttr trackedTargets kv.1) kv.2) acc →
      e ∈ acc ∨ ∃ k, (k, e.2) ∈ l ∧ e.1 = stripAttr trackedTargets k := by
    intro l
    induction l with
    | nil => intro acc h; exact Or.inl h
    | cons a l ih =>
      intro acc h
      simp only [List.foldl_cons] at h
      rcases ih _ h with h | ⟨k, h, hk⟩
      · rcases mem_set h with rfl | h
        · exact Or.inr ⟨a.1, by simp, rfl⟩
        · exact Or.inl h
      · exact Or.inr ⟨k, by simp [h], hk⟩
  rcases key _ _ h with h | ⟨k, h, hk⟩
  · simp at h
  · exact ⟨k, (List.mem_filter.1 h).1, hk⟩

theorem findItem_mem {d : ADict} {q : Query} {t : Option Str} {e : Str × AVal} (h : findItem trackedTargets d q t = some e) :
    e ∈ d := by
  cases q with
  | name n =>
    unfold findItem at h
    simp only at h
    split at h
    · rename_i kv hkv
      simp only [Option.some.injEq] at h
      subst h
      obtain ⟨T, _, h2⟩ := Option.bind_eq_some_iff.1 hkv
      obtain ⟨v, hv, rfl⟩ := Option.map_eq_some_iff.1 h2
      exact Dict.mem_of_get? _ _ _ hv
    · obtain ⟨v, hv, rfl⟩ := Option.map_eq_some_iff.1 h
      exact Dict.mem_of_get? _ _ _ hv
  | pos p => exact (findItem_pos_mem _ _ _ _ _ h).1

/-- What is filtered is in the attributes. -/
theorem filter_plain (d : ADict) (attrs : List Query) (t : Option Str) (sort : Bool) :
    ∀ e ∈ Attrs.filter trackedTargets d (some attrs) t sort, Plain d e := by
  intro e he
  unfold Attrs.filter at he
  simp only [if_true] at he
  obtain ⟨k, hk, hs⟩ := mem_strip he
  rcases mem_update hk with h | h
  · obtain ⟨q, _, hq⟩ := List.mem_filterMap.1 h
    have hm := findItem_mem hq
    obtain ⟨x, hx, hx'⟩ := stripAttr_parts k
    refine ⟨x, ?_, hx'⟩
    rw [hs, ← hx]
    exact hm
  · simp at h

/-- A positional attribute. -/
theorem filter_pos (d : ADict) (t : PType) (ht : t ≠ .any) :
    (Attrs.filter trackedTargets d (some [.pos t]) (some texTarget) true = [] ∧ ∀ k, (k, AVal.pos t) ∉ d) ∨
    ∃ k, (k, AVal.pos t) ∈ d ∧
      Attrs.filter trackedTargets d (some [.pos t]) (some texTarget) true = [(stripAttr trackedTargets k, AVal.pos t)] := by
  have hst : stripDots texTarget = texTarget := by decide
  unfold Attrs.filter
  simp only [Option.getD_some, Option.map_some, if_true, hst]
  have hu : Lists.uniq id [Query.pos t] = [Query.pos t] := rfl
  have hr : removeAttrs trackedTargets [Query.pos t] (some texTarget) = [] := rfl
  rw [hu, hr]
  simp only [List.not_mem_nil, not_false_eq_true, decide_true, List.filter_cons_of_pos, List.filter_nil]
  cases hf : findItem trackedTargets d (.pos t) (some texTarget) with
  | none =>
    left
    refine ⟨by simp [hf, Dict.update, Attrs.strip, Dict.keys], ?_⟩
    intro k hk
    unfold findItem at hf
    simp only at hf
    split at hf
    · simp at hf
    · rw [List.head?_eq_none_iff] at hf
      have : (k, AVal.pos t) ∈ ([] : List (Str × AVal)) := by
        rw [← hf]
        exact List.mem_filter.2 ⟨hk, by simp [PType.isSub]⟩
      simp at this
  | some kv =>
    right
    obtain ⟨hm, t', ht', hsub⟩ := findItem_pos_mem _ _ _ _ _ hf
    obtain ⟨k, v⟩ := kv
    simp only at ht'
    subst ht'
    have : t' = t := by
      unfold PType.isSub at hsub
      simp only [Bool.or_eq_true, decide_eq_true_eq] at hsub
      rcases hsub with h | h
      · exact absurd h ht
      · exact h
    subst this
    refine ⟨k, hm, ?_⟩
    simp only [hf, List.filterMap_cons, List.filterMap_nil]
    have hd : Dict.update ([] : ADict) [(k, AVal.pos t')] = [(k, .pos t')] := rfl
    rw [hd]
    unfold Attrs.strip
    simp only [Dict.keys, List.map_cons, List.map_nil]
    by_cases hs : isTargetSpecific trackedTargets k = true
    · have hne : k ≠ stripAttr trackedTargets k := by simpa [isTargetSpecific] using hs
      simp [hs, hne, Dict.set]
    · simp [hs, Dict.set]

/-- The required arguments of commands and environments that have at most one. -/
theorem required_ok (args : Dict Str (List PType)) (name : Str) (d : ADict) (types : List PType)
    (h : args.get? name = some types) (ht : types = [] ∨ ∃ t, t ≠ PType.any ∧ types = [t]) :
    (∀ o, requiredStr trackedTargets (posTable args) name d = .ok o → ArgsOf d types o ∧ ∀ t ∈ types, ∃ k, (k, AVal.pos t) ∈ d) ∧
    ((∀ t ∈ types, ∃ k, (k, AVal.pos t) ∈ d) → ∃ o, requiredStr trackedTargets (posTable args) name d = .ok o) := by
  have h1 : (posTable args).get? name = some (types.map .pos) := by unfold posTable; rw [get?_map, h]; rfl
  unfold requiredStr
  rw [h1]
  rcases ht with rfl | ⟨t, ht, rfl⟩
  · simp only [List.map_nil, filter_nil, texArguments]
    refine ⟨?_, fun _ => ⟨_, rfl⟩⟩
    intro o ho
    rw [if_neg (by simp)] at ho
    simp only [Except.ok.injEq] at ho
    subst ho
    exact ⟨⟨[], rfl, by simp, rfl⟩, by simp⟩
  · simp only [List.map_cons, List.map_nil]
    rcases filter_pos d t ht with ⟨hf, hno⟩ | ⟨k, hm, hf⟩
    · rw [hf]
      refine ⟨?_, ?_⟩
      · intro o ho; rw [if_pos (by simp)] at ho; simp at ho
      · intro ha
        obtain ⟨k, hk⟩ := ha t (by simp)
        exact absurd hk (hno k)
    · rw [hf]
      refine ⟨?_, fun _ => ⟨_, by rw [if_neg (by simp)]⟩⟩
      intro o ho
      rw [if_neg (by simp)] at ho
      simp only [Except.ok.injEq] at ho
      subst ho
      obtain ⟨x, hx, hx'⟩ := stripAttr_parts k
      refine ⟨⟨[(stripAttr trackedTargets k, t)], rfl, ?_, ?_⟩, ?_⟩
      · intro w hw
        simp only [List.mem_singleton] at hw
        subst hw
        exact ⟨x, by rw [← hx]; exact hm, hx'⟩
      · simp [texArguments]
      · intro t' ht'
        simp only [List.mem_singleton] at ht'
        subst ht'
        exact ⟨k, hm⟩

/-- The rows of the table of environments. -/
theorem env_rows : ∀ e ∈ texEnvArguments, e.2 = [] ∨ ∃ t, t ≠ PType.any ∧ e.2 = [t] := by
  intro e he
  have : e.2 = [] ∨ e.2 = [.string] ∨ e.2 = [.int] := by
    revert e; decide
  rcases this with h | h | h
  · exact Or.inl h
  · exact Or.inr ⟨_, by decide, h⟩
  · exact Or.inr ⟨_, by decide, h⟩

theorem eqColour_ok (col : Option (Except RErr ADict)) (x : Str) :
    (∀ y, eqColour col x = .ok y → Coloured col x y ∧ ∀ r, col = some r → ∃ a k, r = .ok a ∧ (k, AVal.pos .string) ∈ a) ∧
    ((∀ r, col = some r → ∃ a k, r = .ok a ∧ (k, AVal.pos .string) ∈ a) → ∃ y, eqColour col x = .ok y) := by
  cases col with
  | none =>
    refine ⟨?_, fun _ => ⟨x, rfl⟩⟩
    intro y hy
    simp only [eqColour, Except.ok.injEq] at hy
    subst hy
    exact ⟨.plain x, by simp⟩
  | some r =>
    cases r with
    | error e =>
      refine ⟨by intro y hy; simp [eqColour] at hy, ?_⟩
      intro h
      obtain ⟨a, k, h1, _⟩ := h _ rfl
      simp at h1
    | ok a =>
      have hrow : texCmdArguments.get? "textcolor".toList = some [.string] := by decide
      have hopt : (nameTable texCmdOptionals).get? "textcolor".toList = none := by decide
      have hhas : (posTable texCmdArguments).has "textcolor".toList = true := by decide
      obtain ⟨r1, r2⟩ := required_ok texCmdArguments "textcolor".toList a [.string] hrow (Or.inr ⟨_, by decide, rfl⟩)
      simp only [eqColour]
      unfold cmd texCmd optionalStr
      rw [hopt, hhas]
      simp only [Bool.not_true, Bool.false_and, Bool.false_eq_true, if_false]
      cases hq : requiredStr trackedTargets (posTable texCmdArguments) "textcolor".toList a with
      | error e =>
        refine ⟨by intro y hy; simp [Except.mapError] at hy, ?_⟩
        intro h
        obtain ⟨a', k, h1, h2⟩ := h _ rfl
        simp only [Except.ok.injEq] at h1
        subst h1
        obtain ⟨o, ho⟩ := r2 (by intro t ht; simp at ht; subst ht; exact ⟨k, h2⟩)
        rw [hq] at ho
        simp at ho
      | ok o =>
        refine ⟨?_, fun _ => ⟨_, rfl⟩⟩
        intro y hy
        simp only [Except.mapError, Except.ok.injEq] at hy
        obtain ⟨h1, h2⟩ := r1 o hq
        constructor
        · have := Coloured.colour a x o h1
          rw [← hy]
          simpa using this
        · intro r hr
          simp only [Option.some.injEq] at hr
          subst hr
          obtain ⟨k, hk⟩ := h2 .string (by simp)
          exact ⟨a, k, rfl, hk⟩

theorem eqEnv_ok (d : ADict) :
    (∀ e, eqEnv d = .ok e → EnvName d e) ∧ (∀ e, EnvName d e → eqEnv d = .ok e) := by
  have hst : stripDots ".tex".toList = "tex".toList := by decide
  have hf : findItem trackedTargets d (.name "env".toList) (some ".tex".toList) =
      match d.get? ("env".toList ++ '.' :: "tex".toList) with
      | some v => some ("env".toList ++ '.' :: "tex".toList, v)
      | none => (d.get? "env".toList).map fun v => ("env".toList, v) := by
    unfold findItem
    simp only [Option.map_some, hst, Option.bind_some]
    cases d.get? ("env".toList ++ '.' :: "tex".toList) <;> rfl
  have hg : Attrs.get trackedTargets d (.name "env".toList) (some ".tex".toList) =
      (valueFor d "tex".toList "env".toList).map fun v => match v with
        | .str s => .str (stripAttr trackedTargets s)
        | .pos t => .pos t := by
    unfold Attrs.get valueFor
    rw [hf]
    cases d.get? ("env".toList ++ '.' :: "tex".toList) with
    | some v => cases v <;> rfl
    | none =>
      simp only
      cases d.get? "env".toList with
      | none => rfl
      | some v => cases v <;> rfl
  have suff : ∀ v : Str, (stripAttr trackedTargets v = v ∧ ¬ Suffixed trackedTargets v) ∨
      ∃ T ∈ trackedTargets, v = stripAttr trackedTargets v ++ '.' :: T := by
    intro v
    by_cases h : Suffixed trackedTargets v
    · obtain ⟨t, ht, n, rfl⟩ := h
      exact Or.inr ⟨t, ht, by rw [stripAttr_suffixed _ trackedTargets_good _ _ ht]⟩
    · exact Or.inl ⟨stripAttr_not_suffixed _ _ h, h⟩
  unfold eqEnv
  rw [hg]
  constructor
  · intro e he
    cases hv : valueFor d "tex".toList "env".toList with
    | none =>
      rw [hv] at he
      simp only [Option.map_none, Except.ok.injEq] at he
      subst he
      exact .none hv
    | some v =>
      rw [hv] at he
      cases v with
      | pos t => simp at he
      | str v =>
        simp only [Option.map_some, Except.ok.injEq] at he
        by_cases hz : stripAttr trackedTargets v = []
        · rw [if_pos hz] at he
          subst he
          refine .empty v hv ?_
          rcases suff v with ⟨h, _⟩ | ⟨T, hT, h⟩
          · left; rw [← h, hz]
          · right; rw [hz] at h; exact ⟨T, hT, h⟩
        · rw [if_neg hz] at he
          subst he
          rcases suff v with ⟨h, hn⟩ | ⟨T, hT, h⟩
          · exact .given v _ [] hv (by simp [h]) hz (Or.inl ⟨rfl, hn⟩)
          · exact .given v _ _ hv h hz (Or.inr ⟨T, hT, rfl⟩)
  · intro e he
    cases he with
    | none h => rw [h]; rfl
    | given v e x h hx hne hor =>
      rw [h]
      simp only [Option.map_some, Except.ok.injEq]
      have : stripAttr trackedTargets v = e := by
        rcases hor with ⟨rfl, hn⟩ | ⟨T, hT, rfl⟩
        · rw [stripAttr_not_suffixed _ _ hn, hx]; simp
        · rw [hx, stripAttr_suffixed _ trackedTargets_good _ _ hT]
      rw [this, if_neg hne]
    | empty v h hor =>
      rw [h]
      simp only [Option.map_some, Except.ok.injEq]
      have : stripAttr trackedTargets v = [] := by
        rcases hor with rfl | ⟨T, hT, rfl⟩
        · decide
        · exact stripAttr_suffixed _ trackedTargets_good [] T hT
      rw [if_pos this]

theorem eqPlace_ok (d : ADict) (e x : Str) :
    (∀ y, texEnv trackedTargets (posTable texEnvArguments) texEnvOptionals e d x true = .ok y →
      (e ∈ texEnvArguments.keys ∨ e ∈ texEnvOptionals.keys) ∧ (∀ t ∈ (texEnvArguments.get? e).getD [], ∃ k, (k, AVal.pos t) ∈ d) ∧
      ∃ o z, EnvArgs d e o ∧ OnLines x z ∧
        y = "\\begin{".toList ++ e ++ "}".toList ++ o ++ " %".toList ++ z ++ "\\end{".toList ++ e ++ "}".toList) ∧
    ((e ∈ texEnvArguments.keys ∨ e ∈ texEnvOptionals.keys) → (∀ t ∈ (texEnvArguments.get? e).getD [], ∃ k, (k, AVal.pos t) ∈ d) →
      ∃ y, texEnv trackedTargets (posTable texEnvArguments) texEnvOptionals e d x true = .ok y) := by
  have hreq : (∀ o, requiredStr trackedTargets (posTable texEnvArguments) e d = .ok o →
        ArgsOf d ((texEnvArguments.get? e).getD []) o ∧ ∀ t ∈ (texEnvArguments.get? e).getD [], ∃ k, (k, AVal.pos t) ∈ d) ∧
      ((∀ t ∈ (texEnvArguments.get? e).getD [], ∃ k, (k, AVal.pos t) ∈ d) →
        ∃ o, requiredStr trackedTargets (posTable texEnvArguments) e d = .ok o) := by
    cases hg : texEnvArguments.get? e with
    | some types =>
      exact required_ok texEnvArguments e d types hg (env_rows (e, types) (Dict.mem_of_get? texEnvArguments e types hg))
    | none =>
      have h1 : (posTable texEnvArguments).get? e = none := by unfold posTable; rw [get?_map, hg]; rfl
      unfold requiredStr
      rw [h1]
      refine ⟨?_, fun _ => ⟨[], rfl⟩⟩
      intro o ho
      simp only [Except.ok.injEq] at ho
      subst ho
      exact ⟨⟨[], rfl, by simp, rfl⟩, by simp⟩
  have hopt : (e ∉ texEnvOptionals.keys → optionalStr trackedTargets texEnvOptionals e d true = []) ∧
      ∃ es, (∀ x ∈ es, Plain d x) ∧ Bracketed es (optionalStr trackedTargets texEnvOptionals e d true) := by
    unfold optionalStr
    constructor
    · intro hn
      rw [(Dict.get?_eq_none_iff _ _).2 hn]
    · cases hg : texEnvOptionals.get? e with
      | none => exact ⟨[], by simp, .none⟩
      | some attrs => exact ⟨_, filter_plain d attrs _ true, texOptionals_bracketed _⟩
  have hhas : ((posTable texEnvArguments).has e = true ↔ e ∈ texEnvArguments.keys) := by
    rw [Dict.has_iff]
    unfold posTable Dict.keys
    rw [List.map_map]
    exact Iff.rfl
  have hnot : (!(posTable texEnvArguments).has e && !Dict.has texEnvOptionals e) = true ↔
      ¬ (e ∈ texEnvArguments.keys ∨ e ∈ texEnvOptionals.keys) := by
    rw [← hhas, ← Dict.has_iff]
    cases (posTable texEnvArguments).has e <;> cases Dict.has texEnvOptionals e <;> simp
  unfold texEnv
  by_cases hal : e ∈ texEnvArguments.keys ∨ e ∈ texEnvOptionals.keys
  · rw [if_neg (by rw [hnot]; exact fun h => h hal)]
    cases hr : requiredStr trackedTargets (posTable texEnvArguments) e d with
    | error err =>
      refine ⟨by intro y hy; simp at hy, ?_⟩
      intro _ hex
      obtain ⟨o, ho⟩ := hreq.2 hex
      rw [hr] at ho
      simp at ho
    | ok o =>
      refine ⟨?_, fun _ _ => ⟨_, rfl⟩⟩
      intro y hy
      simp only [Except.ok.injEq, if_true] at hy
      obtain ⟨h1, h2⟩ := hreq.1 o hr
      refine ⟨hal, h2, o ++ optionalStr trackedTargets texEnvOptionals e d true, _, ⟨o, _, rfl, h1, hopt.1, hopt.2⟩, onLines x, ?_⟩
      rw [← hy]
      simp
  · rw [if_pos (by rw [hnot]; exact hal)]
    exact ⟨by intro y hy; simp at hy, fun h => absurd h hal⟩

theorem blanks_eq : (fun c => c == ' ' || c == '\t' || c == '\n') = fun ch : Char => [' ', '\t', '\n'].contains ch := by
  funext c
  simp only [List.contains_cons, List.contains_nil, Bool.or_false, Bool.or_assoc]

/-- The command for bold equations. -/
theorem eqBold_ok (d : ADict) (name x : Str) : ∃ y,
    (if (d.has "bold".toList || decide (name = "termb".toList)) = true then cmd "boldsymbol".toList [] x else .ok x) = .ok y ∧
    Emboldened name d x y := by
  have hb : (d.has "bold".toList || decide (name = "termb".toList)) = true ↔ ("bold".toList ∈ d.keys ∨ name = "termb".toList) := by
    rw [Bool.or_eq_true, Dict.has_iff, decide_eq_true_iff]
  by_cases h : "bold".toList ∈ d.keys ∨ name = "termb".toList
  · rw [if_pos (hb.2 h)]
    exact ⟨_, cmd_eq _ _ _ (by decide) (by decide), fun _ => by simp, fun h' => absurd h h'⟩
  · rw [if_neg (fun h' => h (hb.1 h'))]
    exact ⟨x, rfl, fun h' => absurd h' h, fun _ => rfl⟩

theorem eqTex_ok (sp : Char → Bool) (b : Bool) (name : Str) (d : ADict) (col : Option (Except RErr ADict)) (math : Bool) (x out : Str)
    (h : eqTex sp b name d col math x = .ok out) : ∃ x1 x2 x3 x4,
      Trimmed (fun ch => [' ', '\t', '\n'].contains ch) x x1 ∧ Coloured col x1 x2 ∧ Emboldened name d x2 x3 ∧ Trimmed sp x3 x4 ∧
      Placed b d math x4 out ∧ EqFine math b d col := by
  unfold eqTex at h
  rw [blanks_eq] at h
  have ht := strip_trimmed (fun ch => [' ', '\t', '\n'].contains ch) x
  generalize strip (fun ch => [' ', '\t', '\n'].contains ch) x = x1 at h ht
  cases hc : eqColour col x1 with
  | error e => rw [hc] at h; simp [Except.bind] at h
  | ok x2 =>
    obtain ⟨h2, hf⟩ := (eqColour_ok col x1).1 x2 hc
    obtain ⟨x3, hx3, h3⟩ := eqBold_ok d name x2
    rw [hc] at h
    simp only [Except.bind] at h
    rw [hx3] at h
    simp only at h
    refine ⟨x1, x2, x3, _, ht, h2, h3, strip_trimmed sp x3, ?_⟩
    generalize strip sp x3 = x4 at h
    cases math with
    | true =>
      simp only [if_true, Except.ok.injEq] at h
      subst h
      exact ⟨.math x4, hf, by simp⟩
    | false =>
      simp only [Bool.false_eq_true, if_false] at h
      have hd : (b || Dict.has d "env".toList) = true ↔ (b = true ∨ "env".toList ∈ d.keys) := by
        rw [Bool.or_eq_true, Dict.has_iff]
      by_cases hb : b = true ∨ "env".toList ∈ d.keys
      · rw [if_pos (hd.2 hb)] at h
        cases he : eqEnv d with
        | error e => rw [he] at h; simp at h
        | ok e =>
          rw [he] at h
          simp only at h
          cases hx : texEnv trackedTargets (posTable texEnvArguments) texEnvOptionals e d x4 true with
          | error e => rw [hx] at h; simp [Except.mapError] at h
          | ok y =>
            rw [hx] at h
            simp only [Except.mapError, Except.ok.injEq] at h
            subst h
            obtain ⟨h1, h2, o, z, h4, h5, rfl⟩ := (eqPlace_ok d e x4).1 y hx
            have hn := (eqEnv_ok d).1 e he
            exact ⟨.block x4 z e o hb hn h1 h4 h5, hf, fun _ _ => ⟨e, hn, h1, h2⟩⟩
      · rw [if_neg (fun h' => hb (hd.1 h'))] at h
        rw [cmd_eq _ _ _ (by decide) (by decide)] at h
        simp only [Except.ok.injEq] at h
        subst h
        refine ⟨?_, hf, fun _ h' => absurd h' hb⟩
        have := Placed.inline (block := b) (d := d) x4 (by cases b; rfl; exact absurd (Or.inl rfl) hb) (fun h' => hb (Or.inr h'))
        simpa using this

theorem eqTex_fine (sp : Char → Bool) (b : Bool) (name : Str) (d : ADict) (col : Option (Except RErr ADict)) (math : Bool) (x : Str)
    (h : EqFine math b d col) : ∃ out, eqTex sp b name d col math x = .ok out := by
  obtain ⟨h1, h2⟩ := h
  unfold eqTex
  obtain ⟨x2, hx2⟩ := (eqColour_ok col (strip (fun c => c == ' ' || c == '\t' || c == '\n') x)).2 h1
  obtain ⟨x3, hx3, _⟩ := eqBold_ok d name x2
  rw [hx2]
  simp only [Except.bind]
  rw [hx3]
  simp only
  cases math with
  | true => exact ⟨_, rfl⟩
  | false =>
    simp only [Bool.false_eq_true, if_false]
    have hd : (b || Dict.has d "env".toList) = true ↔ (b = true ∨ "env".toList ∈ d.keys) := by
      rw [Bool.or_eq_true, Dict.has_iff]
    by_cases hb : b = true ∨ "env".toList ∈ d.keys
    · rw [if_pos (hd.2 hb)]
      obtain ⟨e, he, h3, h4⟩ := h2 rfl hb
      rw [(eqEnv_ok d).2 e he]
      simp only
      obtain ⟨y, hy⟩ := (eqPlace_ok d e (strip sp x3)).2 h3 h4
      rw [hy]
      exact ⟨y, rfl⟩
    · rw [if_neg (fun h' => hb (hd.1 h'))]
      exact ⟨_, cmd_eq _ _ _ (by decide) (by decide)⟩

end Verif.Render

namespace Verif.Render

open Verif Verif.Attrs Verif.Attrs.Spec Verif.Formats Verif.Render.Spec

/-! ### LaTeX -/

theorem texLeaf_none (sp : Char → Bool) (k : Kind) (name : Str) (d : ADict) (math : Bool) (c : Node) (h1 : k ∉ leaves)
    (h2 : k ∉ headings) : texLeaf sp k name d math c = none := by
  cases k <;> first | rfl | (exfalso; revert h1; decide) | (exfalso; revert h2; decide)

/-- What a tag puts around its content. -/
theorem texWrap_ok (sp : Char → Bool) (k : Kind) (d : ADict) (math : Bool) (c : Node) (x : Str) (h1 : k ∉ leaves)
    (h2 : k ∉ headings) :
    ∃ out, texWrap (paragraphNewlines c) k d math x = .ok out ∧
      ∀ n, Written sp math c x → Written sp math (.tag k n d c) out := by
  have command : ∀ (k : Kind) (s : String), (k, s) ∈ commands → texCmdArguments.get? s.toList = some [] →
      s.toList ∉ texCmdOptionals.keys →
      ∃ out, cmd s.toList d x = .ok out ∧ ∀ n, Written sp math c x → Written sp math (.tag k n d c) out := by
    intro k s hs hg ho
    exact ⟨_, cmd_eq _ d x hg ho, fun n hw => Written.command _ k n d c x s hs hw⟩
  have plain : ∀ (k : Kind) (s : String), (k, s) ∈ environments → texEnvArguments.get? s.toList = some [] →
      texEnvOptionals.get? s.toList = none →
      ∃ out, env s.toList d x = .ok out ∧ ∀ n, Written sp math c x → Written sp math (.tag k n d c) out := by
    intro k s hs hg ho
    obtain ⟨y, hy, he⟩ := env_plain _ d x hg ho
    exact ⟨_, he, fun n hw => Written.environment _ k n d c x y [] s hs hw hy (Or.inl rfl)⟩
  have figure : ∀ (k : Kind) (s : String), (k, s) ∈ environments → k ∈ [Kind.marginfigure, .figure, .fullfigure] →
      texEnvArguments.get? s.toList = none → texEnvOptionals.get? s.toList = some [.pos .string] →
      ∃ out, env s.toList d x = .ok out ∧ ∀ n, Written sp math c x → Written sp math (.tag k n d c) out := by
    intro k s hs hk hg ho
    obtain ⟨o, y, hy, hO, he⟩ := env_figure k _ d x hk hg ho
    exact ⟨_, he, fun n hw => Written.environment _ k n d c x y o s hs hw hy hO⟩
  cases k with
  | generic => exact ⟨x, rfl, fun n hw => .bare _ _ n d c x (by decide) hw⟩
  | body => exact ⟨x, rfl, fun n hw => .bare _ _ n d c x (by decide) hw⟩
  | p =>
    by_cases he : IsEq c
    · obtain ⟨b, nm, d', col, c', html, rfl⟩ := he
      exact ⟨x, rfl, fun n hw => .eqParagraph _ n d _ x ⟨_, _, _, _, _, _, rfl⟩ hw⟩
    · refine ⟨_, rfl, fun n hw => ?_⟩
      have : paragraphNewlines c = true := by
        cases c <;> first | rfl | exact absurd ⟨_, _, _, _, _, _, rfl⟩ he
      rw [this]
      exact .paragraph _ n d c x he hw
  | bold => exact command .bold "textbf" (by decide) rfl (by decide)
  | italics => exact command .italics "textit" (by decide) rfl (by decide)
  | sidenote => exact command .sidenote "marginnote" (by decide) rfl (by decide)
  | para => exact command .para "paragraph" (by decide) rfl (by decide)
  | sup =>
    obtain ⟨y, hy, hm⟩ := inMath_eq math ("^{".toList ++ x ++ ['}'])
    exact ⟨y, hy, fun n hw => .sup _ n d c x y hw hm⟩
  | sub =>
    obtain ⟨y, hy, hm⟩ := inMath_eq math ("_{".toList ++ x ++ ['}'])
    exact ⟨y, hy, fun n hw => .sub _ n d c x y hw hm⟩
  | featurebox => exact plain .featurebox "featurebox" (by decide) rfl rfl
  | examplebox => exact plain .examplebox "examplebox" (by decide) rfl rfl
  | problembox => exact plain .problembox "problembox" (by decide) rfl rfl
  | marginfigure => exact figure .marginfigure "marginfigure" (by decide) (by decide) rfl rfl
  | figure => exact figure .figure "figure" (by decide) (by decide) rfl rfl
  | fullfigure => exact figure .fullfigure "figure*" (by decide) (by decide) rfl rfl
  | _ => first | (exfalso; revert h1; decide) | (exfalso; revert h2; decide)

/-- The tags with a text of their own. -/
theorem texLeaf_ok (sp : Char → Bool) (k : Kind) (name : Str) (d : ADict) (math : Bool) (c : Node) (hk : k ∈ leaves) :
    ∃ r, texLeaf sp k name d math c = some r ∧
      (∀ out, r = .ok out → Sayable (.tag k name d c) → Written sp math (.tag k name d c) out) ∧
      ((∃ out, r = .ok out) ↔ IsStr c ∧ (k = .supsub → ∃ s a b, c = .str s ∧ Halves s a b)) := by
  have hlist : ∀ l, ¬ IsStr (.list l) := by rintro l ⟨s, hs⟩; simp at hs
  have htag : ∀ k n d c, ¬ IsStr (.tag k n d c) := by rintro k n d c ⟨s, hs⟩; simp at hs
  have heq : ∀ b n d col c h, ¬ IsStr (.eq b n d col c h) := by rintro b n d col c h ⟨s, hs⟩; simp at hs
  have hother : ∀ t x h, ¬ IsStr (.other t x h) := by rintro t x h ⟨s, hs⟩; simp at hs
  have hcases : k = .supsub ∨ k = .symbol ∨ k = .verb := by simpa [leaves] using hk
  rcases hcases with rfl | rfl | rfl
  · refine ⟨_, rfl, ?_, ?_⟩
    · intro out h _
      cases c with
      | str s =>
        simp only at h
        cases hp : supsubParts sp s with
        | none => rw [hp] at h; simp at h
        | some ab =>
          obtain ⟨a', b'⟩ := ab
          rw [hp] at h
          obtain ⟨a, b, hh, ha, hb⟩ := (supsubParts_eq sp s).1 a' b' hp
          obtain ⟨y, hy, hm⟩ := inMath_eq math ("^{".toList ++ a' ++ "}_{".toList ++ b' ++ ['}'])
          simp only at h
          rw [hy] at h
          simp only [Except.ok.injEq] at h
          subst h
          exact .supsub _ name d s a b a' b' y hh ha hb hm
      | tag => simp at h
      | list => simp at h
      | eq => simp at h
      | other => simp at h
    · cases c with
      | str s =>
        simp only
        cases hp : supsubParts sp s with
        | none =>
          have := (supsubParts_eq sp s).2 hp
          simp only [reduceCtorEq, exists_false, false_iff]
          rintro ⟨_, h⟩
          obtain ⟨s', a, b, hs, hh⟩ := h trivial
          simp only [Node.str.injEq] at hs
          subst hs
          exact this a b hh
        | some ab =>
          obtain ⟨a', b'⟩ := ab
          obtain ⟨a, b, hh, ha, hb⟩ := (supsubParts_eq sp s).1 a' b' hp
          obtain ⟨y, hy, hm⟩ := inMath_eq math ("^{".toList ++ a' ++ "}_{".toList ++ b' ++ ['}'])
          simp only
          exact ⟨fun _ => ⟨⟨s, rfl⟩, fun _ => ⟨s, a, b, rfl, hh⟩⟩, fun _ => ⟨y, hy⟩⟩
      | tag => simp [htag]
      | list => simp [hlist]
      | eq => simp [heq]
      | other => simp [hother]
  · refine ⟨_, rfl, ?_, ?_⟩
    · intro out h _
      cases c with
      | str s =>
        obtain ⟨y, hy, hm⟩ := inMath_eq math ('\\' :: s)
        simp only at h
        rw [hy] at h
        simp only [Except.ok.injEq] at h
        subst h
        exact .symbol _ name d s y hm
      | tag => simp at h
      | list => simp at h
      | eq => simp at h
      | other => simp at h
    · cases c with
      | str s =>
        obtain ⟨y, hy, hm⟩ := inMath_eq math ('\\' :: s)
        exact ⟨fun _ => ⟨⟨s, rfl⟩, by simp⟩, fun _ => ⟨y, hy⟩⟩
      | tag => simp [htag]
      | list => simp [hlist]
      | eq => simp [heq]
      | other => simp [hother]
  · refine ⟨_, rfl, ?_, ?_⟩
    · intro out h hs
      cases c with
      | str s =>
        simp only at h
        by_cases hn : name = "verbatim".toList
        · rw [if_pos hn] at h
          obtain ⟨y, hy, he⟩ := env_plain "verbatim".toList [] s rfl rfl
          rw [he] at h
          simp only [Except.ok.injEq] at h
          subst h hn
          have := Written.verbatim (sp := sp) math d s y hy
          simpa using this
        · rw [if_neg hn] at h
          simp only [Except.ok.injEq] at h
          subst h
          simp only [Sayable] at hs
          have hd := hs.2.1 trivial hn s rfl
          obtain ⟨q, h0, h1, h2⟩ : ∃ q, q ∈ ['|', '!', '^'] ∧ q ∉ s ∧ texVerb s = "\\verb".toList ++ q :: s ++ [q] := by
            unfold texVerb
            by_cases h1 : '|' ∉ s
            · exact ⟨'|', by simp, h1, by rw [if_pos h1]; simp⟩
            · by_cases h2 : '!' ∉ s
              · exact ⟨'!', by simp, h2, by rw [if_neg h1, if_pos h2]; simp⟩
              · by_cases h3 : '^' ∉ s
                · exact ⟨'^', by simp, h3, by rw [if_neg h1, if_neg h2, if_pos h3]; simp⟩
                · rcases hd with h | h | h
                  · exact absurd h h1
                  · exact absurd h h2
                  · exact absurd h h3
          rw [h2]
          exact .verb _ name d s q hn h0 h1
      | tag => simp at h
      | list => simp at h
      | eq => simp at h
      | other => simp at h
    · cases c with
      | str s =>
        simp only
        refine ⟨fun _ => ⟨⟨s, rfl⟩, by simp⟩, fun _ => ?_⟩
        split
        · obtain ⟨y, hy, he⟩ := env_plain "verbatim".toList [] s rfl rfl
          exact ⟨_, he⟩
        · exact ⟨_, rfl⟩
      | tag => simp [htag]
      | list => simp [hlist]
      | eq => simp [heq]
      | other => simp [hother]

theorem joinParts_strs (sp : Char → Bool) (math : Bool) (l : List Node) :
    (∀ out, joinParts l = .ok out → Written sp math (.list l) out ∧ ∀ n ∈ l, IsStr n) ∧
    ((∀ n ∈ l, IsStr n) → ∃ out, joinParts l = .ok out) := by
  induction l with
  | nil => exact ⟨fun out h => by simp only [joinParts, Except.ok.injEq] at h; subst h; exact ⟨.nil _, by simp⟩, fun _ => ⟨[], rfl⟩⟩
  | cons n l ih =>
    cases n with
    | str s =>
      simp only [joinParts]
      constructor
      · intro out h
        cases hr : joinParts l with
        | error e => rw [hr] at h; simp [Except.map] at h
        | ok r =>
          rw [hr] at h
          simp only [Except.map, Except.ok.injEq] at h
          subst h
          obtain ⟨hw, hs⟩ := ih.1 r hr
          refine ⟨.cons _ _ l s r (.str _ s) hw, ?_⟩
          intro n hn
          simp at hn
          rcases hn with rfl | hn
          · exact ⟨s, rfl⟩
          · exact hs n hn
      · intro h
        obtain ⟨r, hr⟩ := ih.2 fun n hn => h n (by simp [hn])
        exact ⟨s ++ r, by rw [hr]; rfl⟩
    | tag k nm d c =>
      constructor
      · intro out h; simp [joinParts] at h
      · intro h
        obtain ⟨s, hs⟩ := h (.tag k nm d c) (by simp)
        simp at hs
    | list l' =>
      constructor
      · intro out h; simp [joinParts] at h
      · intro h
        obtain ⟨s, hs⟩ := h (.list l') (by simp)
        simp at hs
    | eq b nm d col c html =>
      constructor
      · intro out h; simp [joinParts] at h
      · intro h
        obtain ⟨s, hs⟩ := h (.eq b nm d col c html) (by simp)
        simp at hs
    | other t x html =>
      constructor
      · intro out h; simp [joinParts] at h
      · intro h
        obtain ⟨s, hs⟩ := h (.other t x html) (by simp)
        simp at hs

/-- The form of formatted items. -/
theorem texItems_single (sp : Char → Bool) (math : Bool) (l : List Node) (items : List Node)
    (h : texItems sp math l = .ok items) (l' : List Node) : items = [.list l'] ↔ l = [.list l'] := by
  cases l with
  | nil => simp [texItems] at h; subst h; simp
  | cons n l =>
    have hlen : ∀ (l items : List Node), texItems sp math l = .ok items → (items = [] ↔ l = []) := by
      intro l items h
      cases l with
      | nil => simp [texItems] at h; simp [← h]
      | cons n l =>
        have : items ≠ [] := by
          cases n with
          | str s =>
            simp only [texItems] at h
            cases hr : texItems sp math l with
            | error e => rw [hr] at h; simp [Except.map] at h
            | ok r => rw [hr] at h; simp [Except.map] at h; subst h; simp
          | list l'' =>
            simp only [texItems] at h
            cases hr : texItems sp math l with
            | error e => rw [hr] at h; simp [Except.map] at h
            | ok r => rw [hr] at h; simp [Except.map] at h; subst h; simp
          | tag k nm d c =>
            simp only [texItems] at h
            cases ht : texFmt sp math (.tag k nm d c) with
            | error e => rw [ht] at h; simp at h
            | ok s =>
              rw [ht] at h
              simp only at h
              cases hr : texItems sp math l with
              | error e => rw [hr] at h; simp [Except.map] at h
              | ok r => rw [hr] at h; simp [Except.map] at h; subst h; simp
          | eq b nm d col c html =>
            simp only [texItems] at h
            cases ht : texFmt sp math (.eq b nm d col c html) with
            | error e => rw [ht] at h; simp at h
            | ok s =>
              rw [ht] at h
              simp only at h
              cases hr : texItems sp math l with
              | error e => rw [hr] at h; simp [Except.map] at h
              | ok r => rw [hr] at h; simp [Except.map] at h; subst h; simp
          | other t x html =>
            simp only [texItems] at h
            cases ht : texFmt sp math (.other t x html) with
            | error e => rw [ht] at h; simp at h
            | ok s =>
              rw [ht] at h
              simp only at h
              cases hr : texItems sp math l with
              | error e => rw [hr] at h; simp [Except.map] at h
              | ok r => rw [hr] at h; simp [Except.map] at h; subst h; simp
        simp [this]
    cases n with
    | str s =>
      simp only [texItems] at h
      cases hr : texItems sp math l with
      | error e => rw [hr] at h; simp [Except.map] at h
      | ok r => rw [hr] at h; simp [Except.map] at h; subst h; simp
    | list l'' =>
      simp only [texItems] at h
      cases hr : texItems sp math l with
      | error e => rw [hr] at h; simp [Except.map] at h
      | ok r =>
        rw [hr] at h
        simp [Except.map] at h
        subst h
        have := hlen l r hr
        simp [this]
    | tag k nm d c =>
      simp only [texItems] at h
      cases ht : texFmt sp math (.tag k nm d c) with
      | error e => rw [ht] at h; simp at h
      | ok s =>
        rw [ht] at h
        simp only at h
        cases hr : texItems sp math l with
        | error e => rw [hr] at h; simp [Except.map] at h
        | ok r => rw [hr] at h; simp [Except.map] at h; subst h; simp
    | eq b nm d col c html =>
      simp only [texItems] at h
      cases ht : texFmt sp math (.eq b nm d col c html) with
      | error e => rw [ht] at h; simp at h
      | ok s =>
        rw [ht] at h
        simp only at h
        cases hr : texItems sp math l with
        | error e => rw [hr] at h; simp [Except.map] at h
        | ok r => rw [hr] at h; simp [Except.map] at h; subst h; simp
    | other t x html =>
      simp only [texItems] at h
      cases ht : texFmt sp math (.other t x html) with
      | error e => rw [ht] at h; simp at h
      | ok s =>
        rw [ht] at h
        simp only at h
        cases hr : texItems sp math l with
        | error e => rw [hr] at h; simp [Except.map] at h
        | ok r => rw [hr] at h; simp [Except.map] at h; subst h; simp

theorem joinItems_other (items : List Node) (h : ∀ l, items ≠ [.list l]) : joinItems items = joinParts items := by
  unfold joinItems
  split
  · rename_i l; exact absurd rfl (h l)
  · rfl

mutual
/-- What is written, and that nothing is only if the tree is flat. -/
theorem written (sp : Char → Bool) : ∀ (math : Bool) (n : Node) (out : Str), Sayable n → texFmt sp math n = .ok out →
    Written sp math n out ∧ Flat leaves (some math) n
  | math, .str s, out, _, h => by
    simp only [texFmt, Except.ok.injEq] at h
    subst h
    exact ⟨.str _ s, by simp [Flat]⟩
  | math, .tag k nm d c, out, hs, h => by
    have hk : k ∉ headings := by simp only [Sayable] at hs; exact hs.1
    simp only [texFmt] at h
    by_cases hl : k ∈ leaves
    · obtain ⟨r, hr, hw, hf⟩ := texLeaf_ok sp k nm d math c hl
      rw [hr] at h
      simp only at h
      obtain ⟨hstr, hhalf⟩ := hf.1 ⟨out, h⟩
      refine ⟨hw out h hs, ?_⟩
      simp only [Flat]
      refine ⟨hhalf, fun _ => hstr, ?_⟩
      obtain ⟨s, rfl⟩ := hstr
      simp [Flat]
    · rw [texLeaf_none sp k nm d math c hl hk] at h
      simp only at h
      cases hc : texFmt sp math c with
      | error e => rw [hc] at h; simp [Except.bind] at h
      | ok x =>
        rw [hc] at h
        simp only [Except.bind] at h
        simp only [Sayable] at hs
        obtain ⟨hw, hf⟩ := written sp math c x hs.2.2 hc
        obtain ⟨o, ho, hwo⟩ := texWrap_ok sp k d math c x hl hk
        rw [ho] at h
        simp only [Except.ok.injEq] at h
        subst h
        refine ⟨hwo nm hw, ?_⟩
        simp only [Flat]
        refine ⟨?_, fun h => absurd h hl, hf⟩
        rintro rfl
        exact absurd (by decide) hl
  | math, .eq b nm d col c html, out, hs, h => by
    simp only [texFmt] at h
    cases hc : texFmt sp true c with
    | error e => rw [hc] at h; simp [Except.bind] at h
    | ok x =>
      rw [hc] at h
      simp only [Except.bind] at h
      simp only [Sayable] at hs
      obtain ⟨hw, hf⟩ := written sp true c x hs hc
      obtain ⟨x1, x2, x3, x4, h1, h2, h3, h4, h5, hfine⟩ := eqTex_ok sp b nm d col math x out h
      refine ⟨.eq math b nm d col c html x x1 x2 x3 x4 out hw h1 h2 h3 h4 h5, ?_⟩
      simp only [Flat]
      refine ⟨?_, by simp⟩
      intro m hm
      simp only [Option.some.injEq] at hm
      subst hm
      exact ⟨hf, hfine⟩
  | math, .other t tx html, out, hs, h => by
    simp only [texFmt] at h
    refine ⟨.other math t tx html out h, ?_⟩
    simp only [Flat]
    refine ⟨?_, by simp⟩
    intro m hm
    simp only [Option.some.injEq] at hm
    subst hm
    exact ⟨out, h⟩
  | math, .list l, out, hs, h => by
    simp only [texFmt] at h
    cases hi : texItems sp math l with
    | error e => rw [hi] at h; simp [Except.bind] at h
    | ok items =>
      rw [hi] at h
      simp only [Except.bind] at h
      simp only [Sayable] at hs
      by_cases hsing : ∃ l', l = [.list l']
      · obtain ⟨l', rfl⟩ := hsing
        have := (texItems_single sp math _ items hi l').2 rfl
        subst this
        simp only [joinItems] at h
        obtain ⟨hw, hst⟩ := (joinParts_strs sp math l').1 out h
        constructor
        · have := Written.cons (sp := sp) math (.list l') [] out [] hw (.nil _)
          simpa using this
        · simp only [Flat, FlatAll]
          refine ⟨Or.inr ⟨l', rfl, hst⟩, ⟨Or.inl ?_, ?_⟩, trivial⟩
          · rintro n hn ⟨l'', rfl⟩
            obtain ⟨s, hs⟩ := hst _ hn
            simp at hs
          · clear hs hi h hw
            induction l' with
            | nil => simp [FlatAll]
            | cons n l' ih =>
              obtain ⟨s, rfl⟩ := hst n (by simp)
              simp only [FlatAll, Flat, true_and]
              exact ih fun n hn => hst n (by simp [hn])
      · rw [joinItems_other items (by
          intro l' h'
          exact hsing ⟨l', (texItems_single sp math l items hi l').1 h'⟩)] at h
        obtain ⟨hw, hf, hno⟩ := writtenItems sp math l items out hs hi h
        refine ⟨hw, ?_⟩
        simp only [Flat]
        exact ⟨Or.inl hno, hf⟩
theorem writtenItems (sp : Char → Bool) : ∀ (math : Bool) (l items : List Node) (out : Str), SayableAll l →
    texItems sp math l = .ok items → joinParts items = .ok out →
    Written sp math (.list l) out ∧ FlatAll leaves (some math) l ∧ ∀ n ∈ l, ¬ IsList n
  | math, [], items, out, _, hi, h => by
    simp only [texItems, Except.ok.injEq] at hi
    subst hi
    simp only [joinParts, Except.ok.injEq] at h
    subst h
    exact ⟨.nil _, by simp [FlatAll], by simp⟩
  | math, .str s :: l, items, out, hs, hi, h => by
    simp only [texItems] at hi
    cases hr : texItems sp math l with
    | error e => rw [hr] at hi; simp [Except.map] at hi
    | ok r =>
      rw [hr] at hi
      simp only [Except.map, Except.ok.injEq] at hi
      subst hi
      simp only [joinParts] at h
      cases hj : joinParts r with
      | error e => rw [hj] at h; simp [Except.map] at h
      | ok y =>
        rw [hj] at h
        simp only [Except.map, Except.ok.injEq] at h
        subst h
        simp only [SayableAll] at hs
        obtain ⟨hw, hf, hn⟩ := writtenItems sp math l r y hs.2 hr hj
        refine ⟨.cons _ _ l s y (.str _ s) hw, by simp [FlatAll, Flat, hf], ?_⟩
        intro n hn'
        simp at hn'
        rcases hn' with rfl | hn'
        · rintro ⟨l', hl'⟩; simp at hl'
        · exact hn n hn'
  | math, .list l' :: l, items, out, hs, hi, h => by
    simp only [texItems] at hi
    cases hr : texItems sp math l with
    | error e => rw [hr] at hi; simp [Except.map] at hi
    | ok r =>
      rw [hr] at hi
      simp only [Except.map, Except.ok.injEq] at hi
      subst hi
      simp [joinParts] at h
  | math, .tag k nm d c :: l, items, out, hs, hi, h => by
    simp only [texItems] at hi
    cases ht : texFmt sp math (.tag k nm d c) with
    | error e => rw [ht] at hi; simp at hi
    | ok x =>
      rw [ht] at hi
      simp only at hi
      simp only [SayableAll] at hs
      obtain ⟨hw0, hf0⟩ := written sp math (.tag k nm d c) x hs.1 ht
      cases hr : texItems sp math l with
      | error e => rw [hr] at hi; simp [Except.map] at hi
      | ok r =>
        rw [hr] at hi
        simp only [Except.map, Except.ok.injEq] at hi
        subst hi
        simp only [joinParts] at h
        cases hj : joinParts r with
        | error e => rw [hj] at h; simp [Except.map] at h
        | ok y =>
          rw [hj] at h
          simp only [Except.map, Except.ok.injEq] at h
          subst h
          obtain ⟨hw, hf, hn⟩ := writtenItems sp math l r y hs.2 hr hj
          refine ⟨.cons _ _ l x y hw0 hw, by simp only [FlatAll]; exact ⟨hf0, hf⟩, ?_⟩
          intro n hn'
          simp at hn'
          rcases hn' with rfl | hn'
          · rintro ⟨l', hl'⟩; simp at hl'
          · exact hn n hn'
  | math, .eq b nm d col c html :: l, items, out, hs, hi, h => by
    simp only [texItems] at hi
    cases ht : texFmt sp math (.eq b nm d col c html) with
    | error e => rw [ht] at hi; simp at hi
    | ok x =>
      rw [ht] at hi
      simp only at hi
      simp only [SayableAll] at hs
      obtain ⟨hw0, hf0⟩ := written sp math (.eq b nm d col c html) x hs.1 ht
      cases hr : texItems sp math l with
      | error e => rw [hr] at hi; simp [Except.map] at hi
      | ok r =>
        rw [hr] at hi
        simp only [Except.map, Except.ok.injEq] at hi
        subst hi
        simp only [joinParts] at h
        cases hj : joinParts r with
        | error e => rw [hj] at h; simp [Except.map] at h
        | ok y =>
          rw [hj] at h
          simp only [Except.map, Except.ok.injEq] at h
          subst h
          obtain ⟨hw, hf, hn⟩ := writtenItems sp math l r y hs.2 hr hj
          refine ⟨.cons _ _ l x y hw0 hw, by simp only [FlatAll]; exact ⟨hf0, hf⟩, ?_⟩
          intro n hn'
          simp at hn'
          rcases hn' with rfl | hn'
          · rintro ⟨l', hl'⟩; simp at hl'
          · exact hn n hn'
  | math, .other t tx html :: l, items, out, hs, hi, h => by
    simp only [texItems] at hi
    cases ht : texFmt sp math (.other t tx html) with
    | error e => rw [ht] at hi; simp at hi
    | ok x =>
      rw [ht] at hi
      simp only at hi
      simp only [SayableAll] at hs
      obtain ⟨hw0, hf0⟩ := written sp math (.other t tx html) x hs.1 ht
      cases hr : texItems sp math l with
      | error e => rw [hr] at hi; simp [Except.map] at hi
      | ok r =>
        rw [hr] at hi
        simp only [Except.map, Except.ok.injEq] at hi
        subst hi
        simp only [joinParts] at h
        cases hj : joinParts r with
        | error e => rw [hj] at h; simp [Except.map] at h
        | ok y =>
          rw [hj] at h
          simp only [Except.map, Except.ok.injEq] at h
          subst h
          obtain ⟨hw, hf, hn⟩ := writtenItems sp math l r y hs.2 hr hj
          refine ⟨.cons _ _ l x y hw0 hw, by simp only [FlatAll]; exact ⟨hf0, hf⟩, ?_⟩
          intro n hn'
          simp at hn'
          rcases hn' with rfl | hn'
          · rintro ⟨l', hl'⟩; simp at hl'
          · exact hn n hn'
end

mutual
/-- A flat tree is written. -/
theorem flat_ok (sp : Char → Bool) : ∀ (math : Bool) (n : Node), Flat leaves (some math) n → ∃ out, texFmt sp math n = .ok out
  | math, .str s, _ => ⟨s, by simp [texFmt]⟩
  | math, .eq b nm d col c html, h => by
    simp only [Flat] at h
    obtain ⟨hc, hfine⟩ := h.1 math rfl
    obtain ⟨x, hx⟩ := flat_ok sp true c hc
    obtain ⟨out, ho⟩ := eqTex_fine sp b nm d col math x hfine
    exact ⟨out, by simp only [texFmt]; rw [hx]; exact ho⟩
  | math, .other t tx html, h => by
    simp only [Flat] at h
    exact h.1 math rfl
  | math, .tag k nm d c, h => by
    simp only [Flat] at h
    simp only [texFmt]
    by_cases hl : k ∈ leaves
    · obtain ⟨r, hr, hw, hf⟩ := texLeaf_ok sp k nm d math c hl
      obtain ⟨out, ho⟩ := hf.2 ⟨h.2.1 hl, h.1⟩
      exact ⟨out, by rw [hr]; exact ho⟩
    · by_cases hk : k ∈ headings
      · have hall : ∀ s, texCmdArguments.get? s = some [] → s ∉ texCmdOptionals.keys → ∃ out, cmd s d [] = .ok out :=
          fun s h1 h2 => ⟨_, cmd_eq s d [] h1 h2⟩
        have : k = .title ∨ k = .part ∨ k = .chapter ∨ k = .section ∨ k = .subsection ∨ k = .subsubsection := by
          simpa [headings] using hk
        rcases this with rfl | rfl | rfl | rfl | rfl | rfl
        all_goals exact hall _ rfl (by decide)
      · rw [texLeaf_none sp k nm d math c hl hk]
        obtain ⟨x, hx⟩ := flat_ok sp math c h.2.2
        obtain ⟨out, ho, _⟩ := texWrap_ok sp k d math c x hl hk
        exact ⟨out, by rw [hx]; exact ho⟩
  | math, .list l, h => by
    simp only [Flat] at h
    simp only [texFmt]
    rcases h.1 with hno | ⟨l', rfl, hst⟩
    · obtain ⟨items, out, hi, hj⟩ := flat_items sp math l h.2 hno
      refine ⟨out, ?_⟩
      rw [hi]
      simp only [Except.bind]
      rw [joinItems_other]
      · exact hj
      · intro l' h'
        have := (texItems_single sp math l items hi l').1 h'
        subst this
        exact hno (.list l') (by simp) ⟨l', rfl⟩
    · obtain ⟨out, ho⟩ := (joinParts_strs sp math l').2 hst
      exact ⟨out, by simp [texItems, Except.map, Except.bind, joinItems, ho]⟩
theorem flat_items (sp : Char → Bool) : ∀ (math : Bool) (l : List Node), FlatAll leaves (some math) l → (∀ n ∈ l, ¬ IsList n) →
    ∃ items out, texItems sp math l = .ok items ∧ joinParts items = .ok out
  | math, [], _, _ => ⟨[], [], by simp [texItems], by simp [joinParts]⟩
  | math, .str s :: l, h, hn => by
    simp only [FlatAll] at h
    obtain ⟨items, out, hi, hj⟩ := flat_items sp math l h.2 fun n hn' => hn n (by simp [hn'])
    exact ⟨.str s :: items, s ++ out, by simp [texItems, hi, Except.map], by simp [joinParts, hj, Except.map]⟩
  | math, .list l' :: l, h, hn => absurd ⟨l', rfl⟩ (hn (.list l') (by simp))
  | math, .tag k nm d c :: l, h, hn => by
    simp only [FlatAll] at h
    obtain ⟨items, out, hi, hj⟩ := flat_items sp math l h.2 fun n hn' => hn n (by simp [hn'])
    obtain ⟨x, hx⟩ := flat_ok sp math (.tag k nm d c) h.1
    refine ⟨.str x :: items, x ++ out, ?_, by simp [joinParts, hj, Except.map]⟩
    simp only [texItems]
    rw [hx]
    simp [hi, Except.map]
  | math, .eq b nm d col c html :: l, h, hn => by
    simp only [FlatAll] at h
    obtain ⟨items, out, hi, hj⟩ := flat_items sp math l h.2 fun n hn' => hn n (by simp [hn'])
    obtain ⟨x, hx⟩ := flat_ok sp math (.eq b nm d col c html) h.1
    refine ⟨.str x :: items, x ++ out, ?_, by simp [joinParts, hj, Except.map]⟩
    simp only [texItems]
    rw [hx]
    simp [hi, Except.map]
  | math, .other t tx html :: l, h, hn => by
    simp only [FlatAll] at h
    obtain ⟨items, out, hi, hj⟩ := flat_items sp math l h.2 fun n hn' => hn n (by simp [hn'])
    obtain ⟨x, hx⟩ := flat_ok sp math (.other t tx html) h.1
    refine ⟨.str x :: items, x ++ out, ?_, by simp [joinParts, hj, Except.map]⟩
    simp only [texItems]
    rw [hx]
    simp [hi, Except.map]
end

end Verif.Render

namespace Verif.Render

open Verif Verif.Attrs Verif.Attrs.Spec Verif.Formats Verif.Render.Spec Verif.Parser.Spec

/-! ### Texts -/

theorem _root_.Verif.Render.Spec.InOrder.more {ts : List Str} {x : Str} (a b : Str) (h : InOrder ts x) : InOrder ts (a ++ x ++ b) := by
  induction h generalizing a with
  | nil g => exact .nil _
  | cons g s r ts hr ih =>
    have := InOrder.cons (a ++ g) s _ ts (ih [])
    simpa using this

theorem _root_.Verif.Render.Spec.InOrder.append {ts us : List Str} {x y : Str} (h1 : InOrder ts x) (h2 : InOrder us y) : InOrder (ts ++ us) (x ++ y) := by
  induction h1 with
  | nil g => simpa using h2.more g []
  | cons g s r ts hr ih =>
    have := InOrder.cons g s _ _ ih
    simpa using this

theorem _root_.Verif.Render.Spec.InOrder.one (s : Str) : InOrder [s] s := by
  have := InOrder.cons [] s [] [] (.nil [])
  simpa using this

/-- What is trimmed is unique. -/
theorem trimmed_unique (sp : Char → Bool) (s t u : Str) (h1 : Trimmed sp s t) (h2 : Trimmed sp s u) : t = u := by
  have key : ∀ t, Trimmed sp s t → t = strip sp s := by
    rintro t ⟨a, b, rfl, ha, hb, hh, hl⟩
    have drop : ∀ (a r : Str), (∀ c ∈ a, sp c = true) → (a ++ r).dropWhile sp = r.dropWhile sp := by
      intro a r ha
      induction a with
      | nil => rfl
      | cons c a ih =>
        simp only [List.cons_append]
        rw [List.dropWhile_cons_of_pos (ha c (by simp))]
        exact ih fun c hc => ha c (by simp [hc])
    have stay : ∀ r : Str, (∀ c, r.head? = some c → sp c = false) → r.dropWhile sp = r := by
      intro r hr
      cases r with
      | nil => rfl
      | cons c r => rw [List.dropWhile_cons_of_neg (by simp [hr c rfl])]
    unfold strip rstrip lstrip
    rw [List.append_assoc, drop a _ ha]
    cases t with
    | nil =>
      have : (([] : Str) ++ b).dropWhile sp = [] := by
        have := drop b [] hb
        simpa using this
      rw [this]
      rfl
    | cons c t =>
      rw [stay (c :: t ++ b) (by intro x hx; simp at hx; subst hx; exact hh c rfl)]
      rw [List.reverse_append, drop b.reverse _ (by simpa using hb), stay]
      · simp
      · intro x hx
        rw [List.head?_reverse] at hx
        exact hl x hx
  rw [key t h1, key u h2]

theorem halves_unique (s a b a' b' : Str) (h1 : Halves s a b) (h2 : Halves s a' b') : a = a' ∧ b = b' := by
  have e1 := (split_halves s a b).2 h1
  have e2 := (split_halves s a' b').2 h2
  rw [e1] at e2
  simpa using e2

theorem trimmedAll_unique (sp : Char → Bool) (ss ts us : List Str) (h1 : TrimmedAll sp ss ts) (h2 : TrimmedAll sp ss us) :
    ts = us := by
  induction h1 generalizing us with
  | nil => cases h2; rfl
  | cons s t ss ts h _ ih =>
    cases h2 with
    | cons _ u _ us h' h'' => rw [trimmed_unique sp s t u h h', ih _ h'']

/-- The texts are unique. -/
theorem texts_unique (sp : Char → Bool) (tex : Bool) (n : Node) (ts us : List Str) (h1 : HasTexts sp tex n ts)
    (h2 : HasTexts sp tex n us) :
    ts = us := by
  induction h1 generalizing us with
  | str s => cases h2; rfl
  | supsub n d s a b a' b' hh ha hb =>
    cases h2 with
    | supsub _ _ _ a2 b2 a2' b2' hh2 ha2 hb2 =>
      obtain ⟨rfl, rfl⟩ := halves_unique s _ _ _ _ hh hh2
      rw [trimmed_unique sp _ _ _ ha ha2, trimmed_unique sp _ _ _ hb hb2]
    | tag _ _ _ _ _ hk => exact absurd (by decide) hk
  | symbol n d s s' h =>
    cases h2 with
    | symbol _ _ _ s2 h' => rw [trimmed_unique sp _ _ _ h h']
    | tag _ _ _ _ _ hk => exact absurd (by decide) hk
  | verb n d s =>
    cases h2 with
    | verb => rfl
    | tag _ _ _ _ _ hk => exact absurd (by decide) hk
  | tag k n d c ts hk _ ih =>
    cases h2 with
    | supsub => exact absurd (by decide) hk
    | symbol => exact absurd (by decide) hk
    | verb => exact absurd (by decide) hk
    | tag _ _ _ _ _ _ h => exact ih _ h
  | nil => cases h2; rfl
  | cons n l ts us h1 h2' ih1 ih2 =>
    cases h2 with
    | cons _ _ ts' us' h h' => rw [ih1 _ h, ih2 _ h']
  | eq b n d col c html ts us ht _ htr ih =>
    cases h2 with
    | eq _ _ _ _ _ _ ts' us' _ h' htr' =>
      rw [ih _ h'] at htr
      exact trimmedAll_unique _ _ _ _ htr htr'
    | image _ _ _ _ _ _ hf => rw [ht] at hf; exact absurd hf (by simp)
  | image b n d col c html hf =>
    cases h2 with
    | eq _ _ _ _ _ _ ts' us' ht => rw [ht] at hf; exact absurd hf (by simp)
    | image => rfl
  | other => cases h2; rfl

theorem inMath_more {math : Bool} {x y : Str} (h : InMath math x y) : ∃ a b, y = a ++ x ++ b ∧
    (a = [] ∧ b = [] ∨ a = "\\ensuremath{".toList ∧ b = "}".toList) := by
  cases math with
  | false => exact ⟨_, _, h, Or.inr ⟨rfl, rfl⟩⟩
  | true => exact ⟨[], [], by simpa [InMath] using h, Or.inl ⟨rfl, rfl⟩⟩

theorem inOrder_trim (sp : Char → Bool) (ss ts : List Str) (x : Str) (h : InOrder ss x) (ht : TrimmedAll sp ss ts) : InOrder ts x := by
  induction h generalizing ts with
  | nil g => cases ht; exact .nil _
  | cons g s r ss hr ih =>
    cases ht with
    | cons _ t _ ts h1 h2 =>
      obtain ⟨a, b, rfl, _⟩ := h1
      have := InOrder.cons (g ++ a) t (b ++ r) ts (by simpa using (ih ts h2).more b [])
      simpa using this

theorem inOrder_tail (sp : Char → Bool) (ts : List Str) (c : Char) (x : Str) (hc : sp c = true)
    (ht : ∀ t ∈ ts, ∀ c, t.head? = some c → sp c = false) (h : InOrder ts (c :: x)) : InOrder ts x := by
  generalize hy : c :: x = y at h
  induction h generalizing x with
  | nil g => exact .nil _
  | cons g s r ts hr ih =>
    cases g with
    | cons c' g =>
      simp only [List.cons_append, List.cons.injEq] at hy
      rw [hy.2]
      exact .cons g s r ts hr
    | nil =>
      cases s with
      | nil =>
        have := InOrder.cons [] [] x ts (ih x (fun t h => ht t (by simp [h])) (by simpa using hy))
        simpa using this
      | cons c' s =>
        simp only [List.nil_append, List.cons_append, List.cons.injEq] at hy
        have := ht (c' :: s) (by simp) c' rfl
        rw [← hy.1, hc] at this
        simp at this

theorem inOrder_drop (sp : Char → Bool) (ts : List Str) (a x : Str) (ha : ∀ c ∈ a, sp c = true)
    (ht : ∀ t ∈ ts, ∀ c, t.head? = some c → sp c = false) (h : InOrder ts (a ++ x)) : InOrder ts x := by
  induction a with
  | nil => exact h
  | cons c a ih =>
    exact ih (fun c hc => ha c (by simp [hc])) (inOrder_tail sp ts c (a ++ x) (ha c (by simp)) ht h)

theorem inOrder_reverse (ts : List Str) (x : Str) (h : InOrder ts x) : InOrder (ts.map List.reverse).reverse x.reverse := by
  induction h with
  | nil g => exact .nil _
  | cons g s r ts hr ih =>
    have := ih.append ((InOrder.one s.reverse).more [] g.reverse)
    simpa using this

/-- Tight texts are in what is trimmed. -/
theorem inOrder_trimmed (sp sp' : Char → Bool) (hsp : ∀ c, sp' c = true → sp c = true) (ts : List Str) (x x1 : Str)
    (ht : ∀ t ∈ ts, (∀ c, t.head? = some c → sp c = false) ∧ ∀ c, t.getLast? = some c → sp c = false)
    (hx : Trimmed sp' x x1) (h : InOrder ts x) : InOrder ts x1 := by
  obtain ⟨a, b, rfl, ha, hb, _⟩ := hx
  rw [List.append_assoc] at h
  have h1 := inOrder_drop sp ts a (x1 ++ b) (fun c hc => hsp c (ha c hc)) (fun t h => (ht t h).1) h
  have h2 := inOrder_reverse ts _ h1
  rw [List.reverse_append] at h2
  have h3 := inOrder_drop sp _ b.reverse x1.reverse (fun c hc => hsp c (hb c (List.mem_reverse.1 hc))) (by
    intro t htm c hc
    simp only [List.mem_reverse, List.mem_map] at htm
    obtain ⟨s, hs, rfl⟩ := htm
    rw [List.head?_reverse] at hc
    exact (ht s hs).2 c hc) h2
  have h4 := inOrder_reverse _ _ h3
  have e : (List.map List.reverse (List.map List.reverse ts).reverse).reverse = ts := by
    rw [← List.map_reverse, List.reverse_reverse, List.map_map]
    have : (List.reverse ∘ List.reverse : Str → Str) = id := by funext s; simp
    rw [this, List.map_id]
  rw [e, List.reverse_reverse] at h4
  exact h4

theorem trimmedAll_tight (sp : Char → Bool) (ss ts : List Str) (h : TrimmedAll sp ss ts) :
    ∀ t ∈ ts, (∀ c, t.head? = some c → sp c = false) ∧ ∀ c, t.getLast? = some c → sp c = false := by
  induction h with
  | nil => simp
  | cons s t ss ts h1 _ ih =>
    obtain ⟨a, b, _, _, _, h2, h3⟩ := h1
    intro t' ht'
    rcases List.mem_cons.1 ht' with rfl | ht'
    · exact ⟨h2, h3⟩
    · exact ih t' ht'

theorem trimmedAll_exists (sp : Char → Bool) (ss : List Str) : ∃ ts, TrimmedAll sp ss ts := by
  induction ss with
  | nil => exact ⟨[], .nil⟩
  | cons s ss ih =>
    obtain ⟨ts, h⟩ := ih
    exact ⟨_, .cons s _ ss ts (strip_trimmed sp s) h⟩

theorem coloured_more {col : Option (Except RErr ADict)} {x y : Str} (h : Coloured col x y) : ∃ a b, y = a ++ x ++ b := by
  cases h with
  | plain => exact ⟨[], [], by simp⟩
  | colour a x o _ => exact ⟨"\\textcolor".toList ++ o ++ "{".toList, "}".toList, by simp⟩

theorem emboldened_more {name : Str} {d : ADict} {x y : Str} (h : Emboldened name d x y) : ∃ a b, y = a ++ x ++ b := by
  by_cases hc : "bold".toList ∈ d.keys ∨ name = "termb".toList
  · exact ⟨_, _, h.1 hc⟩
  · exact ⟨[], [], by simpa using h.2 hc⟩

theorem placed_more {block : Bool} {d : ADict} {math : Bool} {x y : Str} (h : Placed block d math x y) : ∃ a b, y = a ++ x ++ b := by
  cases h with
  | math => exact ⟨[], [], by simp⟩
  | inline => exact ⟨_, _, rfl⟩
  | block x y e o _ _ _ _ hl =>
    obtain ⟨a, b, rfl, _⟩ := hl
    exact ⟨"\\begin{".toList ++ e ++ "}".toList ++ o ++ " %".toList ++ a, b ++ "\\end{".toList ++ e ++ "}".toList, by simp⟩

/-- What is written has the texts, in order. -/
theorem written_texts (sp : Char → Bool) (math : Bool) (n : Node) (x : Str) (hs : Sayable n) (h : Written sp math n x) :
    ∃ ts, HasTexts sp true n ts ∧ InOrder ts x := by
  induction h with
  | str math s => exact ⟨[s], .str s, .one s⟩
  | nil => exact ⟨[], .nil, .nil _⟩
  | cons math n l x y _ _ ih1 ih2 =>
    simp only [Sayable, SayableAll] at hs
    obtain ⟨ts, h1, h2⟩ := ih1 hs.1
    obtain ⟨us, h3, h4⟩ := ih2 (by simp only [Sayable]; exact hs.2)
    exact ⟨ts ++ us, .cons n l ts us h1 h3, h2.append h4⟩
  | bare math k n d c x hk _ ih =>
    simp only [Sayable] at hs
    obtain ⟨ts, h1, h2⟩ := ih hs.2.2
    refine ⟨ts, .tag k n d c ts ?_ h1, h2⟩
    revert hk; cases k <;> decide
  | paragraph math n d c x _ _ ih =>
    simp only [Sayable] at hs
    obtain ⟨ts, h1, h2⟩ := ih hs.2.2
    exact ⟨ts, .tag _ n d c ts (by decide) h1, by simpa using h2.more ['\n'] ['\n']⟩
  | eqParagraph math n d c x _ _ ih =>
    simp only [Sayable] at hs
    obtain ⟨ts, h1, h2⟩ := ih hs.2.2
    exact ⟨ts, .tag _ n d c ts (by decide) h1, h2⟩
  | eq math b n d col c html x x1 x2 x3 x4 y _ t1 hc hb t2 hp ih =>
    simp only [Sayable] at hs
    obtain ⟨ts, h1, h2⟩ := ih hs
    obtain ⟨us, hu⟩ := trimmedAll_exists (eqSpace sp) ts
    refine ⟨us, .eq b n d col c html ts us rfl h1 hu, ?_⟩
    have tight := trimmedAll_tight _ _ _ hu
    have e1 := inOrder_trimmed (eqSpace sp) _ (by intro c hc; unfold eqSpace; rw [hc]; simp) us x x1 tight t1
      (inOrder_trim _ ts us x h2 hu)
    obtain ⟨a, b, rfl⟩ := coloured_more hc
    obtain ⟨a', b', rfl⟩ := emboldened_more hb
    have e2 := inOrder_trimmed (eqSpace sp) sp (by intro c hc; unfold eqSpace; rw [hc]; rfl) us _ x4 tight t2
      ((e1.more a b).more a' b')
    obtain ⟨a'', b'', rfl⟩ := placed_more hp
    exact e2.more a'' b''
  | other math ts tx html x h =>
    simp only [Sayable] at hs
    exact ⟨ts true, .other ts tx html, hs math x h⟩
  | command math k n d c x cmd hk _ ih =>
    simp only [Sayable] at hs
    obtain ⟨ts, h1, h2⟩ := ih hs.2.2
    refine ⟨ts, .tag k n d c ts ?_ h1, by simpa using h2.more ('\\' :: cmd.toList ++ ['{']) ['}']⟩
    simp only [commands, List.mem_cons, Prod.mk.injEq, List.not_mem_nil, or_false] at hk
    rcases hk with ⟨rfl, _⟩ | ⟨rfl, _⟩ | ⟨rfl, _⟩ | ⟨rfl, _⟩ <;> decide
  | environment math k n d c x y o env hk _ hy ho ih =>
    simp only [Sayable] at hs
    obtain ⟨ts, h1, h2⟩ := ih hs.2.2
    obtain ⟨a, b, rfl, _⟩ := hy
    refine ⟨ts, .tag k n d c ts ?_ h1, ?_⟩
    · simp only [environments, List.mem_cons, Prod.mk.injEq, List.not_mem_nil, or_false] at hk
      rcases hk with ⟨rfl, _⟩ | ⟨rfl, _⟩ | ⟨rfl, _⟩ | ⟨rfl, _⟩ | ⟨rfl, _⟩ | ⟨rfl, _⟩ <;> decide
    · have := h2.more ("\n\\begin{".toList ++ env.toList ++ "}".toList ++ o ++ a) (b ++ "\\end{".toList ++ env.toList ++ "}\n".toList)
      simpa using this
  | sup math n d c x y _ hm ih =>
    simp only [Sayable] at hs
    obtain ⟨ts, h1, h2⟩ := ih hs.2.2
    obtain ⟨a, b, rfl, _⟩ := inMath_more hm
    refine ⟨ts, .tag _ n d c ts (by decide) h1, ?_⟩
    have := h2.more (a ++ "^{".toList) ("}".toList ++ b)
    simpa using this
  | sub math n d c x y _ hm ih =>
    simp only [Sayable] at hs
    obtain ⟨ts, h1, h2⟩ := ih hs.2.2
    obtain ⟨a, b, rfl, _⟩ := inMath_more hm
    refine ⟨ts, .tag _ n d c ts (by decide) h1, ?_⟩
    have := h2.more (a ++ "_{".toList) ("}".toList ++ b)
    simpa using this
  | supsub math n d s a b a' b' y hh ha hb hm =>
    obtain ⟨u, v, rfl, _⟩ := inMath_more hm
    refine ⟨_, .supsub n d s a b a' b' hh ha hb, ?_⟩
    have h1 := (InOrder.one a').more (u ++ "^{".toList) "}_{".toList
    have h2 := (InOrder.one b').more [] ("}".toList ++ v)
    have := h1.append h2
    simpa using this
  | symbol math n d s y hm =>
    obtain ⟨u, v, rfl, _⟩ := inMath_more hm
    obtain ⟨a, b, hs, h1⟩ := strip_trimmed sp s
    refine ⟨_, .symbol n d s _ (strip_trimmed sp s), ?_⟩
    have := (InOrder.one (strip sp s)).more (u ++ '\\' :: a) (b ++ v)
    have he : u ++ '\\' :: s ++ v = u ++ '\\' :: a ++ strip sp s ++ (b ++ v) := by
      have : '\\' :: s = '\\' :: (a ++ strip sp s ++ b) := congrArg _ hs
      rw [this]
      simp
    rw [he]; exact this
  | verb math n d s q _ _ _ =>
    refine ⟨_, .verb n d s, ?_⟩
    have := (InOrder.one s).more ("\\verb".toList ++ [q]) [q]
    simpa using this
  | verbatim math d s y hy =>
    obtain ⟨a, b, rfl, _⟩ := hy
    refine ⟨_, .verb _ d s, ?_⟩
    have := (InOrder.one s).more ("\n\\begin{verbatim}".toList ++ a) (b ++ "\\end{verbatim}\n".toList)
    simpa using this

/-! ### Braces -/

theorem prefix_append_cases (p a b : Str) (h : p <+: a ++ b) : p <+: a ∨ ∃ q, p = a ++ q ∧ q <+: b := by
  obtain ⟨r, hr⟩ := h
  rcases List.append_eq_append_iff.1 hr with ⟨w, rfl, hw⟩ | ⟨w, rfl, hw⟩
  · exact Or.inl ⟨w, rfl⟩
  · exact Or.inr ⟨w, rfl, ⟨r, hw.symm⟩⟩

theorem balanced_append (a b : Str) (ha : Balanced a) (hb : Balanced b) : Balanced (a ++ b) := by
  refine ⟨by simp [ha.1, hb.1], ?_⟩
  intro p hp
  rcases prefix_append_cases _ _ _ hp with h | ⟨q, rfl, hq⟩
  · exact ha.2 p h
  · have := hb.2 q hq
    simp [ha.1, this]

theorem balanced_none (s : Str) (h1 : '{' ∉ s) (h2 : '}' ∉ s) : Balanced s := by
  refine ⟨by rw [List.count_eq_zero_of_not_mem h1, List.count_eq_zero_of_not_mem h2], ?_⟩
  intro p hp
  rw [List.count_eq_zero_of_not_mem fun h => h2 (hp.subset h)]
  omega

theorem balanced_wrap (s : Str) (h : Balanced s) : Balanced ('{' :: s ++ ['}']) := by
  refine ⟨by simp [h.1], ?_⟩
  intro p hp
  cases p with
  | nil => simp
  | cons c p =>
    rw [List.cons_append, List.cons_prefix_cons] at hp
    obtain ⟨rfl, hp⟩ := hp
    rcases prefix_append_cases _ _ _ hp with h' | ⟨q, rfl, hq⟩
    · have := h.2 p h'
      simp
      omega
    · have hq' : q.count '}' ≤ 1 := by
        have := hq.length_le
        have := List.count_le_length (a := '}') (l := q)
        simp at *
        omega
      have := h.1
      simp
      omega

end Verif.Render

namespace Verif.Render

open Verif Verif.Attrs Verif.Attrs.Spec Verif.Formats Verif.Render.Spec Verif.Parser.Spec

theorem balanced_name (s : String) (x : Str) (h1 : '{' ∉ s.toList) (h2 : '}' ∉ s.toList) (h : Balanced x) :
    Balanced ('\\' :: s.toList ++ '{' :: x ++ ['}']) := by
  have := balanced_append ('\\' :: s.toList) ('{' :: x ++ ['}']) (balanced_none _ (by simp [h1]) (by simp [h2]))
    (balanced_wrap x h)
  simpa using this

theorem balanced_inMath (math : Bool) (x y : Str) (h : InMath math x y) (hx : Balanced x) : Balanced y := by
  cases math with
  | true =>
    have : y = x := by simpa [InMath] using h
    rw [this]; exact hx
  | false =>
    have : y = "\\ensuremath{".toList ++ x ++ ['}'] := h
    rw [this]
    exact balanced_name "ensuremath" x (by decide) (by decide) hx

theorem balanced_onLines (x y : Str) (h : OnLines x y) (hx : Balanced x) : Balanced y := by
  obtain ⟨a, b, rfl, ha, hb, _⟩ := h
  have ha' : Balanced a := by rcases ha with rfl | rfl <;> exact balanced_none _ (by decide) (by decide)
  have hb' : Balanced b := by rcases hb with rfl | rfl <;> exact balanced_none _ (by decide) (by decide)
  exact balanced_append _ _ (balanced_append _ _ ha' hx) hb'

theorem balanced_environment (e : String) (o y : Str) (h1 : '{' ∉ e.toList) (h2 : '}' ∉ e.toList) (ho : Balanced o)
    (hy : Balanced y) :
    Balanced ("\n\\begin{".toList ++ e.toList ++ "}".toList ++ o ++ y ++ "\\end{".toList ++ e.toList ++ "}\n".toList) := by
  have he : Balanced e.toList := balanced_none _ h1 h2
  have a1 : Balanced "\n\\begin".toList := balanced_none _ (by decide) (by decide)
  have a2 : Balanced "\\end".toList := balanced_none _ (by decide) (by decide)
  have a3 : Balanced "\n".toList := balanced_none _ (by decide) (by decide)
  have := balanced_append _ _ (balanced_append _ _ (balanced_append _ _ (balanced_append _ _ (balanced_append _ _
    (balanced_append _ _ a1 (balanced_wrap _ he)) ho) hy) a2) (balanced_wrap _ he)) a3
  simpa using this

theorem balanced_inner (a b x : Str) (ha : '{' ∉ a ∧ '}' ∉ a) (hb : '{' ∉ b ∧ '}' ∉ b) (h : Balanced (a ++ x ++ b)) : Balanced x := by
  have c1 := List.count_eq_zero_of_not_mem ha.1
  have c2 := List.count_eq_zero_of_not_mem ha.2
  have c3 := List.count_eq_zero_of_not_mem hb.1
  have c4 := List.count_eq_zero_of_not_mem hb.2
  refine ⟨by have := h.1; simp [c1, c2, c3, c4] at this; exact this, ?_⟩
  intro p hp
  have := h.2 (a ++ p) (by
    obtain ⟨q, rfl⟩ := hp
    exact ⟨q ++ b, by simp⟩)
  simp [c1, c2] at this
  exact this

theorem braces_none {x : Str} (h1 : '{' ∉ x) (h2 : '}' ∉ x) : Balanced x := balanced_none x h1 h2

theorem argsOf_balanced (d : ADict) (types : List PType) (o : Str) (h : ArgsOf d types o)
    (hd : ∀ k ∈ d.keys, '{' ∉ k ∧ '}' ∉ k) : Balanced o := by
  obtain ⟨ws, ht, hp, rfl⟩ := h
  clear ht
  induction ws with
  | nil => exact braces_none (by simp) (by simp)
  | cons w ws ih =>
    rw [List.flatMap_cons]
    refine balanced_append _ _ (balanced_wrap _ ?_) (ih fun w hw => hp w (by simp [hw]))
    obtain ⟨x, hx, _⟩ := hp w (by simp)
    have := hd (w.1 ++ x) (List.mem_map_of_mem (f := Prod.fst) hx)
    exact braces_none (fun h => this.1 (by simp [h])) (fun h => this.2 (by simp [h]))

theorem bracketed_plain (es : List (Str × AVal)) (b : Str) (h : Bracketed es b)
    (he : ∀ e ∈ es, '{' ∉ optionText e ∧ '}' ∉ optionText e) : '{' ∉ b ∧ '}' ∉ b := by
  induction h with
  | none => simp
  | one e =>
    have := he e (by simp)
    simp [this.1, this.2]
  | more e e' es s _ ih =>
    have h1 := he e (by simp)
    have h2 := ih fun x hx => he x (by simp at hx ⊢; exact Or.inr hx)
    simp only [List.mem_cons, not_or] at h2
    constructor
    · simp [h1.1, h2.1.2]
    · simp [h1.2, h2.2.2]

theorem envs_plain (e : Str) (h : e ∈ texEnvArguments.keys ∨ e ∈ texEnvOptionals.keys) : '{' ∉ e ∧ '}' ∉ e := by
  have k1 : ∀ e ∈ texEnvArguments.keys, '{' ∉ e ∧ '}' ∉ e := by decide
  have k2 : ∀ e ∈ texEnvOptionals.keys, '{' ∉ e ∧ '}' ∉ e := by decide
  rcases h with h | h
  · exact k1 e h
  · exact k2 e h

theorem placed_balanced (block : Bool) (d : ADict) (math : Bool) (x y : Str) (h : Placed block d math x y) (hx : Balanced x)
    (hd : ∀ k v, (k, v) ∈ d → '{' ∉ k ∧ '}' ∉ k ∧ ∀ s, v = AVal.str s → '{' ∉ s ∧ '}' ∉ s) : Balanced y := by
  cases h with
  | math => exact hx
  | inline => exact balanced_name "ensuremath" x (by decide) (by decide) hx
  | block x y e o _ _ he ha hl =>
    have hy := balanced_onLines x y hl hx
    obtain ⟨a, b, rfl, hargs, _, es, hes, hbr⟩ := ha
    have hk : ∀ k ∈ d.keys, '{' ∉ k ∧ '}' ∉ k := by
      intro k hk
      obtain ⟨kv, hkv, rfl⟩ := List.mem_map.1 hk
      have := hd kv.1 kv.2 hkv
      exact ⟨this.1, this.2.1⟩
    have hb := bracketed_plain es b hbr (by
      intro e he
      obtain ⟨z, hz, _⟩ := hes e he
      have := hd _ _ hz
      simp only [List.mem_append, not_or] at this
      obtain ⟨k, v⟩ := e
      cases v with
      | str s =>
        have hs := this.2.2 s rfl
        simp only [optionText, List.mem_append, List.mem_cons, not_or]
        exact ⟨⟨this.1.1, by decide, hs.1⟩, ⟨this.2.1.1, by decide, hs.2⟩⟩
      | pos t => exact ⟨this.1.1, this.2.1.1⟩)
    have hen := envs_plain e he
    have a1 : Balanced "\\begin".toList := balanced_none _ (by decide) (by decide)
    have a2 : Balanced "\\end".toList := balanced_none _ (by decide) (by decide)
    have a3 : Balanced " %".toList := balanced_none _ (by decide) (by decide)
    have he' := balanced_wrap e (braces_none hen.1 hen.2)
    have := balanced_append _ _ (balanced_append _ _ (balanced_append _ _ (balanced_append _ _ (balanced_append _ _
      (balanced_append _ _ (balanced_append _ _ a1 he') (argsOf_balanced d _ a hargs hk)) (braces_none hb.1 hb.2)) a3) hy) a2) he'
    simpa using this

theorem coloured_balanced (col : Option (Except RErr ADict)) (x y : Str) (h : Coloured col x y) (hx : Balanced x)
    (hc : ∀ a, col = some (.ok a) → ∀ k ∈ a.keys, '{' ∉ k ∧ '}' ∉ k) : Balanced y := by
  cases h with
  | plain => exact hx
  | colour a x o ho =>
    have h1 := argsOf_balanced a _ o ho (hc a rfl)
    have a1 : Balanced "\\textcolor".toList := balanced_none _ (by decide) (by decide)
    have := balanced_append _ _ (balanced_append _ _ a1 h1) (balanced_wrap x hx)
    simpa using this

theorem emboldened_balanced (name : Str) (d : ADict) (x y : Str) (h : Emboldened name d x y) (hx : Balanced x) : Balanced y := by
  by_cases hc : "bold".toList ∈ d.keys ∨ name = "termb".toList
  · rw [h.1 hc]
    exact balanced_name "boldsymbol" x (by decide) (by decide) hx
  · rw [h.2 hc]; exact hx

theorem trimmed_balanced (sp : Char → Bool) (h1 : sp '{' = false) (h2 : sp '}' = false) (x y : Str) (h : Trimmed sp x y) :
    Balanced x ↔ Balanced y := by
  obtain ⟨a, b, rfl, ha, hb, _⟩ := h
  have ha' : '{' ∉ a ∧ '}' ∉ a := ⟨fun h => by rw [ha _ h] at h1; simp at h1, fun h => by rw [ha _ h] at h2; simp at h2⟩
  have hb' : '{' ∉ b ∧ '}' ∉ b := ⟨fun h => by rw [hb _ h] at h1; simp at h1, fun h => by rw [hb _ h] at h2; simp at h2⟩
  exact ⟨balanced_inner a b y ha' hb', fun h => balanced_append _ _ (balanced_append _ _ (braces_none ha'.1 ha'.2) h)
    (braces_none hb'.1 hb'.2)⟩

theorem trimmedAll_balanced (sp : Char → Bool) (h1 : sp '{' = false) (h2 : sp '}' = false) (ss ts : List Str)
    (h : TrimmedAll sp ss ts) (hb : ∀ t ∈ ts, Balanced t) : ∀ s ∈ ss, Balanced s := by
  induction h with
  | nil => simp
  | cons s t ss ts ht _ ih =>
    intro s' hs'
    rcases List.mem_cons.1 hs' with rfl | hs'
    · exact (trimmed_balanced sp h1 h2 _ _ ht).2 (hb t (by simp))
    · exact ih (fun t h => hb t (by simp [h])) s' hs'

theorem written_balanced (sp : Char → Bool) (math : Bool) (n : Node) (x : Str) (hs : Sayable n)
    (h : Written sp math n x) (hb : NoBraces n)
    (h1 : sp '{' = false) (h2 : sp '}' = false)
    (ht : ∀ ts, HasTexts sp true n ts → ∀ t ∈ ts, Balanced t) : Balanced x := by
  have spaces : ∀ a : Str, (∀ c ∈ a, sp c = true) → Balanced a := by
    intro a ha
    apply balanced_none
    · intro h; rw [ha _ h] at h1; simp at h1
    · intro h; rw [ha _ h] at h2; simp at h2
  induction h with
  | str math s => exact ht [s] (.str s) s (by simp)
  | nil => exact balanced_none _ (by decide) (by decide)
  | cons math n l x y hn hl ih1 ih2 =>
    simp only [NoBraces, NoBracesAll] at hb
    simp only [Sayable, SayableAll] at hs
    have hs2 : Sayable (.list l) := by simp only [Sayable]; exact hs.2
    obtain ⟨ts, a1, _⟩ := written_texts sp math n x hs.1 hn
    obtain ⟨us, a2, _⟩ := written_texts sp math _ y hs2 hl
    have hall := ht (ts ++ us) (.cons n l ts us a1 a2)
    apply balanced_append
    · refine ih1 hs.1 hb.1 ?_
      intro ts' h' t hm
      rw [texts_unique sp true n ts' ts h' a1] at hm
      exact hall t (by simp [hm])
    · refine ih2 hs2 (by simp only [NoBraces]; exact hb.2) ?_
      intro us' h' t hm
      rw [texts_unique sp true _ us' us h' a2] at hm
      exact hall t (by simp [hm])
  | bare math k n d c x hk _ ih =>
    simp only [NoBraces] at hb
    simp only [Sayable] at hs
    refine ih hs.2.2 hb.2 fun ts h => ht ts (.tag k n d c ts ?_ h)
    revert hk; cases k <;> decide
  | paragraph math n d c x _ _ ih =>
    simp only [NoBraces] at hb
    simp only [Sayable] at hs
    have := ih hs.2.2 hb.2 fun ts h => ht ts (.tag _ n d c ts (by decide) h)
    have hn : Balanced ['\n'] := balanced_none _ (by decide) (by decide)
    exact balanced_append _ _ (balanced_append _ _ hn this) hn
  | eqParagraph math n d c x _ _ ih =>
    simp only [NoBraces] at hb
    simp only [Sayable] at hs
    exact ih hs.2.2 hb.2 fun ts h => ht ts (.tag _ n d c ts (by decide) h)
  | eq math b n d col c html x x1 x2 x3 x4 y _ t1 hc hbd t2 hp ih =>
    simp only [NoBraces] at hb
    simp only [Sayable] at hs
    have e1 : eqSpace sp '{' = false := by unfold eqSpace; rw [h1]; decide
    have e2 : eqSpace sp '}' = false := by unfold eqSpace; rw [h2]; decide
    have hx : Balanced x := by
      refine ih hs hb.2.2 ?_
      intro ts hts
      obtain ⟨us, hu⟩ := trimmedAll_exists (eqSpace sp) ts
      exact trimmedAll_balanced _ e1 e2 ts us hu (ht us (.eq b n d col c html ts us rfl hts hu))
    have hx1 := (trimmed_balanced _ (by decide) (by decide) _ _ t1).1 hx
    have hx3 := emboldened_balanced _ _ _ _ hbd (coloured_balanced _ _ _ hc hx1 hb.2.1)
    exact placed_balanced _ _ _ _ _ hp ((trimmed_balanced sp h1 h2 _ _ t2).1 hx3) hb.1
  | other math ts tx html x h =>
    simp only [NoBraces] at hb
    exact hb math x h
  | command math k n d c x cmd hk _ ih =>
    simp only [NoBraces] at hb
    simp only [Sayable] at hs
    have hx : Balanced x := by
      refine ih hs.2.2 hb.2 fun ts h => ht ts (.tag k n d c ts ?_ h)
      simp only [commands, List.mem_cons, Prod.mk.injEq, List.not_mem_nil, or_false] at hk
      rcases hk with ⟨rfl, _⟩ | ⟨rfl, _⟩ | ⟨rfl, _⟩ | ⟨rfl, _⟩ <;> decide
    simp only [commands, List.mem_cons, Prod.mk.injEq, List.not_mem_nil, or_false] at hk
    rcases hk with ⟨rfl, rfl⟩ | ⟨rfl, rfl⟩ | ⟨rfl, rfl⟩ | ⟨rfl, rfl⟩ <;>
      exact balanced_name _ x (by decide) (by decide) hx
  | environment math k n d c x y o env hk _ hy ho ih =>
    simp only [NoBraces] at hb
    simp only [Sayable] at hs
    have hx : Balanced x := by
      refine ih hs.2.2 hb.2 fun ts h => ht ts (.tag k n d c ts ?_ h)
      simp only [environments, List.mem_cons, Prod.mk.injEq, List.not_mem_nil, or_false] at hk
      rcases hk with ⟨rfl, _⟩ | ⟨rfl, _⟩ | ⟨rfl, _⟩ | ⟨rfl, _⟩ | ⟨rfl, _⟩ | ⟨rfl, _⟩ <;> decide
    have hy' := balanced_onLines x y hy hx
    have ho' : Balanced o := by
      rcases ho with rfl | ⟨_, w, z, t, hm, _, rfl⟩
      · exact balanced_none _ (by decide) (by decide)
      · have := hb.1 (w ++ z) (List.mem_map_of_mem (f := Prod.fst) hm)
        apply balanced_none
        · intro h
          apply this.1
          simp at h ⊢
          exact Or.inl h
        · intro h
          apply this.2
          simp at h ⊢
          exact Or.inl h
    simp only [environments, List.mem_cons, Prod.mk.injEq, List.not_mem_nil, or_false] at hk
    rcases hk with ⟨rfl, rfl⟩ | ⟨rfl, rfl⟩ | ⟨rfl, rfl⟩ | ⟨rfl, rfl⟩ | ⟨rfl, rfl⟩ | ⟨rfl, rfl⟩ <;>
      exact balanced_environment _ o y (by decide) (by decide) ho' hy'
  | sup math n d c x y _ hm ih =>
    simp only [NoBraces] at hb
    simp only [Sayable] at hs
    have := ih hs.2.2 hb.2 fun ts h => ht ts (.tag _ n d c ts (by decide) h)
    exact balanced_inMath math _ y hm (balanced_append ['^'] _ (balanced_none _ (by decide) (by decide)) (balanced_wrap x this))
  | sub math n d c x y _ hm ih =>
    simp only [NoBraces] at hb
    simp only [Sayable] at hs
    have := ih hs.2.2 hb.2 fun ts h => ht ts (.tag _ n d c ts (by decide) h)
    exact balanced_inMath math _ y hm (balanced_append ['_'] _ (balanced_none _ (by decide) (by decide)) (balanced_wrap x this))
  | supsub math n d s a b a' b' y hh ha hb' hm =>
    have hall := ht _ (.supsub n d s a b a' b' hh ha hb')
    have e1 := balanced_wrap a' (hall a' (by simp))
    have e2 := balanced_wrap b' (hall b' (by simp))
    apply balanced_inMath math _ y hm
    have := balanced_append _ _ (balanced_append ['^'] _ (balanced_none _ (by decide) (by decide)) e1)
      (balanced_append ['_'] _ (balanced_none _ (by decide) (by decide)) e2)
    simpa using this
  | symbol math n d s y hm =>
    have hall := ht _ (.symbol n d s _ (strip_trimmed sp s)) _ (List.mem_singleton.2 rfl)
    obtain ⟨a, b, hs, ha, hb', _⟩ := strip_trimmed sp s
    apply balanced_inMath math _ y hm
    apply balanced_append ['\\'] s (balanced_none _ (by decide) (by decide))
    rw [hs]
    exact balanced_append _ _ (balanced_append _ _ (spaces a ha) hall) (spaces b hb')
  | verb math n d s q _ hq _ =>
    have hall := ht _ (.verb n d s) _ (List.mem_singleton.2 rfl)
    have hq' : Balanced [q] := by
      simp at hq
      rcases hq with rfl | rfl | rfl <;> exact balanced_none _ (by decide) (by decide)
    have := balanced_append _ _ (balanced_append "\\verb".toList _ (balanced_none _ (by decide) (by decide))
      (balanced_append _ _ hq' hall)) hq'
    simpa using this
  | verbatim math d s y hy =>
    have hall := ht _ (.verb _ d s) _ (List.mem_singleton.2 rfl)
    have := balanced_environment "verbatim" [] y (by decide) (by decide) (balanced_none _ (by decide) (by decide))
      (balanced_onLines s y hy hall)
    simpa using this

end Verif.Render
