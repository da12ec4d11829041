import Verif.Lemmas.Formats

/-!
# C28-C31: formatting in LaTeX and html, widths
-/

namespace Verif.Formats

open Verif Verif.Attrs Verif.Attrs.Spec

/-! ### C28: verbatim text -/

/-- C28. Text without one of the three delimiters is put between two of a delimiter that it does not have. -/
theorem C28_delimiter_partial (s : Str) (h : '|' ∉ s ∨ '!' ∉ s ∨ '^' ∉ s) :
    ∃ c, c ∉ s ∧ texVerb s = "\\verb".toList ++ c :: s ++ [c] := by
  unfold texVerb
  by_cases h1 : '|' ∉ s
  · exact ⟨'|', h1, by rw [if_pos h1]; rfl⟩
  · by_cases h2 : '!' ∉ s
    · exact ⟨'!', h2, by rw [if_neg h1, if_pos h2]; rfl⟩
    · have h3 : '^' ∉ s := by
        rcases h with h | h | h
        · exact absurd h h1
        · exact absurd h h2
        · exact h
      exact ⟨'^', h3, by rw [if_neg h1, if_neg h2, if_pos h3]; rfl⟩

/-- Finding: text with all three delimiters is left as it is, without any command. -/
theorem C28_all_delimiters (s : Str) (h1 : '|' ∈ s) (h2 : '!' ∈ s) (h3 : '^' ∈ s) : texVerb s = s := by
  unfold texVerb
  simp [h1, h2, h3]

example : texVerb "a|b".toList = "\\verb!a|b!".toList := by decide

/-! ### C29: commands and environments -/

variable (targets : Targets) (args opts : Table)

/-- C29. A command or environment on neither list is an error. -/
theorem C29_not_allowed (name : Str) (d : ADict) (h1 : name ∉ args.keys) (h2 : name ∉ opts.keys) :
    (∀ c, texCmd targets args opts name d c = .error .notAllowed) ∧
    ∀ c m, texEnv targets args opts name d c m = .error .notAllowed := by
  have a1 : args.has name = false := by
    cases h : args.has name with
    | false => rfl
    | true => exact absurd ((Dict.has_iff _ _).1 h) h1
  have a2 : opts.has name = false := by
    cases h : opts.has name with
    | false => rfl
    | true => exact absurd ((Dict.has_iff _ _).1 h) h2
  constructor
  · intro c; simp [texCmd, a1, a2]
  · intro c m; simp [texEnv, a1, a2]

/-- C29. A command is the name after a backslash, then the required arguments in their order, the optional arguments
and the content in braces; a missing argument is an error. -/
theorem C29_command (hg : GoodTargets targets) (posType : Str → PType) (cmd : Str) (d : ADict)
    (hd : Loaded targets posType d) (types : List PType) (hn : types.Nodup) (ha : PType.any ∉ types)
    (h : args.get? cmd = some (types.map .pos)) (content : Option Str) :
    ((∃ t ∈ types, Attrs.get targets d (.pos t) (some texTarget) = none) →
      texCmd targets args opts cmd d content = .error .arguments) ∧
    (∀ v : PType → Str, (∀ t ∈ types, Attrs.get targets d (.pos t) (some texTarget) = some (.str (v t))) →
      texCmd targets args opts cmd d content =
        .ok (('\\' :: cmd) ++ (types.flatMap fun t => '{' :: v t ++ ['}']) ++ optionalStr targets opts cmd d false ++
          match content with | some c => '{' :: c ++ ['}'] | none => [])) := by
  have hh : args.has cmd = true := by simp [Dict.has, h]
  obtain ⟨h1, h2⟩ := requiredStr_pos targets hg posType args cmd d hd types hn ha h
  constructor
  · intro hm
    unfold texCmd
    rw [hh, h1 hm]; rfl
  · intro v hv
    unfold texCmd
    rw [hh, h2 v hv]
    cases content <;> rfl

/-- Content of an environment: a newline on each side, that may be its own. -/
theorem padded (c : Str) : ∃ a b, trailNewline (leadNewline c) = a ++ c ++ b ∧ (a = [] ∨ a = ['\n']) ∧ (b = [] ∨ b = ['\n']) ∧
    (trailNewline (leadNewline c)).head? = some '\n' ∧ (trailNewline (leadNewline c)).getLast? = some '\n' := by
  have h1 : ∃ a, leadNewline c = a ++ c ∧ (a = [] ∨ a = ['\n']) ∧ (leadNewline c).head? = some '\n' := by
    unfold leadNewline
    split
    · exact ⟨[], rfl, Or.inl rfl, rfl⟩
    · exact ⟨['\n'], rfl, Or.inr rfl, rfl⟩
  obtain ⟨a, ha, ha', hh⟩ := h1
  have h2 : ∀ s : Str, s.head? = some '\n' → ∃ b, trailNewline s = s ++ b ∧ (b = [] ∨ b = ['\n']) ∧
      (trailNewline s).head? = some '\n' ∧ (trailNewline s).getLast? = some '\n' := by
    intro s hs
    unfold trailNewline
    split
    · rename_i hl; exact ⟨[], by simp, Or.inl rfl, hs, hl⟩
    · refine ⟨['\n'], rfl, Or.inr rfl, ?_, by simp⟩
      cases s with
      | nil => simp at hs
      | cons x s => simpa using hs
  obtain ⟨b, hb, hb', h3, h4⟩ := h2 _ hh
  exact ⟨a, b, by rw [hb, ha], ha', hb', h3, h4⟩

/-- C29. An environment begins and ends with the name; after the begin come the required arguments in their order and
the optional arguments; the content is on lines of its own. A missing argument is an error. -/
theorem C29_environment (hg : GoodTargets targets) (posType : Str → PType) (env : Str) (d : ADict)
    (hd : Loaded targets posType d) (types : List PType) (hn : types.Nodup) (ha : PType.any ∉ types)
    (h : args.get? env = some (types.map .pos)) (content : Str) (m : Bool) :
    ((∃ t ∈ types, Attrs.get targets d (.pos t) (some texTarget) = none) →
      texEnv targets args opts env d content m = .error .arguments) ∧
    (∀ v : PType → Str, (∀ t ∈ types, Attrs.get targets d (.pos t) (some texTarget) = some (.str (v t))) →
      ∃ n p a b, (n = if m then [] else ['\n']) ∧ (p = if m then " %".toList else []) ∧
        (a ++ content ++ b).head? = some '\n' ∧ (a ++ content ++ b).getLast? = some '\n' ∧
        (a = [] ∨ a = ['\n']) ∧ (b = [] ∨ b = ['\n']) ∧
        texEnv targets args opts env d content m =
          .ok (n ++ "\\begin{".toList ++ env ++ ['}'] ++ (types.flatMap fun t => '{' :: v t ++ ['}']) ++
            optionalStr targets opts env d true ++ p ++ (a ++ content ++ b) ++ "\\end{".toList ++ env ++ ['}'] ++ n)) := by
  have hh : args.has env = true := by simp [Dict.has, h]
  obtain ⟨h1, h2⟩ := requiredStr_pos targets hg posType args env d hd types hn ha h
  constructor
  · intro hm
    unfold texEnv
    rw [hh, h1 hm]; rfl
  · intro v hv
    obtain ⟨a, b, e1, e2, e3, e4, e5⟩ := padded content
    refine ⟨_, _, a, b, rfl, rfl, e1 ▸ e4, e1 ▸ e5, e2, e3, ?_⟩
    unfold texEnv
    rw [hh, h2 v hv]
    dsimp only
    rw [e1]
    cases m <;> simp

/-- C29. A name that is only on the list of optional arguments has no required arguments. -/
theorem C29_optionals_only (cmd : Str) (d : ADict) (content : Option Str) (h1 : cmd ∉ args.keys) (h2 : cmd ∈ opts.keys) :
    texCmd targets args opts cmd d content =
      .ok ('\\' :: cmd ++ optionalStr targets opts cmd d false ++
        match content with | some c => '{' :: c ++ ['}'] | none => []) := by
  have a1 : args.get? cmd = none := (Dict.get?_eq_none_iff _ _).2 h1
  have a2 : opts.has cmd = true := (Dict.has_iff _ _).2 h2
  unfold texCmd requiredStr
  rw [a1, a2]
  cases content <;> simp

theorem texOptionals_bracketed (d : ADict) : Bracketed d (texOptionals d) := by
  unfold texOptionals
  have key : ∀ (e : Str × AVal) (l : ADict), Bracketed (e :: l) ('[' :: List.intercalate ", ".toList ((e :: l).map fun kv => match kv.2 with
      | .str v => kv.1 ++ '=' :: v
      | .pos _ => kv.1) ++ [']']) := by
    intro e l
    induction l generalizing e with
    | nil =>
      have := Bracketed.one e
      obtain ⟨k, v⟩ := e
      cases v <;> simpa [optionText, List.intercalate] using this
    | cons e' l ih =>
      have := Bracketed.more e e' l _ (ih e')
      obtain ⟨k, v⟩ := e
      cases v <;> simpa [optionText, List.intercalate, List.intersperse] using this
  cases d with
  | nil => exact .none
  | cons e l => rw [if_neg (by simp)]; exact key e l

/-- C29. Optional arguments given by names: in brackets with commas between them, only those on the list, each with its value for
tex, once; nothing if there is no such value. -/
theorem C29_optionals (hg : GoodTargets targets) (hT : texTarget ∈ targets) (name : Str) (d : ADict) (names : List Str)
    (hs : ∀ n ∈ names, ¬ Suffixed targets n) (h : opts.get? name = some (names.map .name)) (sort : Bool) :
    ∃ out : List (Str × AVal), (out.map Prod.fst).Nodup ∧ (∀ n v, (n, v) ∈ out ↔ n ∈ names ∧ valueFor d texTarget n = some v) ∧
      Bracketed out (optionalStr targets opts name d sort) := by
  obtain ⟨h1, h2⟩ := C04_filter_entries targets hg d texTarget hT names hs sort
  exact ⟨_, h1, h2, by unfold optionalStr; rw [h]; exact texOptionals_bracketed _⟩

example : optionalStr trackedTargets (nameTable [("includegraphics".toList, ["width".toList, "height".toList])])
    "includegraphics".toList [("height".toList, .str "2".toList), ("width.tex".toList, .str "3".toList), ("alt".toList, .str "x".toList)] true =
    "[width=3, height=2]".toList := rfl

/-- C29. Required arguments given by names: each in braces, in the order of the table; an error if one has no value for tex. -/
theorem C29_arguments_by_name (hg : GoodTargets targets) (hT : texTarget ∈ targets) (name : Str) (d : ADict) (names : List Str)
    (hn : names.Nodup) (hs : ∀ n ∈ names, ¬ Suffixed targets n) (h : args.get? name = some (names.map .name)) :
    ((∃ n ∈ names, valueFor d texTarget n = none) → requiredStr targets args name d = .error .arguments) ∧
    (∀ v : Str → AVal, (∀ n ∈ names, valueFor d texTarget n = some (v n)) →
      requiredStr targets args name d = .ok (names.flatMap fun n => '{' :: argText n (v n) ++ ['}'])) := by
  have hu : Lists.uniq id (names.map Query.name) = names.map Query.name := by
    rw [uniq_map_name]
    congr 1
    rw [uniq_of_nodup names hn]
  have hf : Attrs.filter targets d (some (names.map .name)) (some texTarget) (sortByAttrs := true) =
      names.filterMap fun n => (valueFor d texTarget n).map fun v => (n, v) := by
    have := filter_plain_aux targets hg d texTarget hT names hn hs
    simp only [Attrs.filter, Option.getD_some, hu, Option.map_some, stripDots_of_no_dot _ (hg _ hT), if_true]
    exact this
  unfold requiredStr
  rw [h]
  dsimp only
  rw [hf]
  constructor
  · rintro ⟨n, hn', hv⟩
    have hlen : (names.filterMap fun n => (valueFor d texTarget n).map fun v => (n, v)).length < names.length := by
      clear hf hu h hs hn
      induction names with
      | nil => simp at hn'
      | cons m names ih =>
        rw [List.filterMap_cons]
        have hle : ∀ l : List Str, (l.filterMap fun n => (valueFor d texTarget n).map fun v => (n, v)).length ≤ l.length :=
          fun l => List.length_filterMap_le _ l
        rcases List.mem_cons.1 hn' with rfl | hn'
        · rw [hv]
          have := hle names
          simp only [Option.map_none, List.length_cons]; omega
        · have := ih hn'
          split <;> simp only [List.length_cons] <;> omega
    rw [if_pos (by simp only [List.length_map]; omega)]
  · intro v hv
    have e : (names.filterMap fun n => (valueFor d texTarget n).map fun v => (n, v)) = names.map fun n => (n, v n) := by
      clear hf hu h hs hn
      induction names with
      | nil => rfl
      | cons m names ih =>
        rw [List.filterMap_cons, hv m (by simp)]
        simp only [Option.map_some, List.map_cons, List.cons.injEq, true_and]
        exact ih fun n hn => hv n (by simp [hn])
    rw [e, if_neg (by simp)]
    congr 1
    unfold texArguments
    rw [List.map_map, List.flatMap_def]
    congr 1
    apply List.map_congr_left
    intro n _
    simp only [Function.comp]
    cases v n <;> rfl

example : requiredStr trackedTargets (nameTable [("rule".toList, ["width".toList, "height".toList])]) "rule".toList
    [("height".toList, .str "2".toList), ("width.tex".toList, .str "3".toList)] = .ok "{3}{2}".toList := rfl

/-- The theorems are about the tables of the settings: their required arguments are classes of positional values, each
at most once. -/
theorem C29_settings : ∀ t ∈ [texCmdArguments, texEnvArguments], ∀ e ∈ t, e.2.Nodup ∧ PType.any ∉ e.2 := by decide

theorem C29_settings_lookup (t : Dict Str (List PType)) (name : Str) (types : List PType) (h : t.get? name = some types) :
    (posTable t).get? name = some (types.map .pos) := by
  unfold posTable
  rw [get?_map, h]; rfl

/-- Finding: a value is not escaped, so that it can close its argument and add commands. -/
theorem C29_injection :
    texCmd trackedTargets (posTable texCmdArguments) [] "textcolor".toList [("red}\\input{x".toList, .pos .string)]
      (some "text".toList) = .ok "\\textcolor{red}\\input{x}{text}".toList := rfl

/-- `setcounter` with its arguments in another order, and without one of them. -/
example : texCmd trackedTargets (posTable texCmdArguments) [] "setcounter".toList
    [("3".toList, .pos .int), ("page".toList, .pos .string)] none = .ok "\\setcounter{page}{3}".toList := rfl

example : texCmd trackedTargets (posTable texCmdArguments) [] "setcounter".toList [("3".toList, .pos .int)] none =
    .error .arguments := rfl

example : texEnv trackedTargets (posTable texEnvArguments) [] "tabular".toList [("ll".toList, .pos .string)] "a & b".toList false =
    .ok "\n\\begin{tabular}{ll}\na & b\n\\end{tabular}\n".toList := rfl

/-- The hypotheses on the attributes are met by what is loaded from `3 page`. -/
example : Loaded trackedTargets (fun s => if s = "3".toList then .int else .string)
    [("3".toList, .pos .int), ("page".toList, .pos .string)] where
  nodup := by decide
  typed := by
    intro k t h n hn
    rw [without_unique _ trackedTargets_good _ _ hn]
    simp at h
    rcases h with ⟨rfl, rfl⟩ | ⟨rfl, rfl⟩ <;> decide
  single := by
    intro k h n hn
    rw [without_unique _ trackedTargets_good _ _ hn]
    rw [← isTargetSpecific_false_iff _ trackedTargets_good]
    simp [Dict.keys] at h
    rcases h with rfl | rfl <;> decide

/-! ### C30: html tags -/

section html

variable {α : Type} (hargs hopts : Dict Str (List Str))

theorem lookup_allowed (t : Dict Str (List Str)) (allowed : Bool) (name : Str) (h : allowed = true ∨ name ∈ t.keys) :
    lookupAttrs (nameTable t) allowed name = (t.get? name).map (·.map .name) := by
  unfold lookupAttrs nameTable
  rw [get?_map]
  cases hg : t.get? name with
  | some a => rfl
  | none =>
    rcases h with rfl | h
    · rfl
    · rw [Dict.get?_eq_none_iff] at hg; exact absurd h hg

theorem lookup_span (t : Dict Str (List Str)) (name : Str) (h : name ∉ t.keys) :
    lookupAttrs (nameTable t) false name = (t.get? "span".toList).map (·.map .name) := by
  unfold lookupAttrs nameTable
  rw [get?_map, get?_map, (Dict.get?_eq_none_iff t name).2 h]
  rfl

theorem has_nameTable (t : Dict Str (List Str)) (name : Str) : (nameTable t).has name = true ↔ name ∈ t.keys := by
  unfold Dict.has nameTable
  rw [get?_map, Option.isSome_map, Dict.get?_isSome_iff]

theorem find_names (hg : GoodTargets targets) (d : ADict) (target : Option Str)
    (hT : ∀ T, target = some T → stripDots T ∈ targets) (o : Option (List Str)) (hn : ∀ l, o = some l → l.Nodup)
    (hs : ∀ l, o = some l → ∀ n ∈ l, ¬ Suffixed targets n) :
    ((o.map (·.map Query.name)).map fun a => Attrs.filter targets d (some a) target (sortByAttrs := true)) =
      o.map fun l => l.filterMap fun n => (valueOf d target n).map fun v => (n, v) := by
  cases o with
  | none => rfl
  | some l =>
    simp only [Option.map_some]
    rw [filter_names targets hg d target hT l (hn l rfl) (hs l rfl)]

/-- What is in a list of values looked up by name. -/
theorem mem_values (d : ADict) (target : Option Str) (l : List Str) (k : Str) (v : AVal) :
    (k, v) ∈ (l.filterMap fun n => (valueOf d target n).map fun v => (n, v)) ↔ k ∈ l ∧ valueOf d target k = some v := by
  rw [List.mem_filterMap]
  constructor
  · rintro ⟨n, hn, h⟩
    cases hv : valueOf d target n with
    | none => simp [hv] at h
    | some w => simp [hv] at h; obtain ⟨rfl, rfl⟩ := h; exact ⟨hn, hv⟩
  · rintro ⟨h1, h2⟩
    exact ⟨k, h1, by rw [h2]; rfl⟩

/-- The hypotheses on the tables: attribute names are listed once, none of them is specific to a target, and `span` has no
required attributes. -/
structure GoodTables : Prop where
  nodup : ∀ t ∈ [hargs, hopts], ∀ n l, t.get? n = some l → l.Nodup
  plain : ∀ t ∈ [hargs, hopts], ∀ n l, t.get? n = some l → ∀ a ∈ l, ¬ Suffixed targets a
  span : "span".toList ∉ hargs.keys

/-- The attributes found. -/
def foundAttrs (d : ADict) (target : Option Str) (l : List Str) : ADict :=
  l.filterMap fun n => (valueOf d target n).map fun v => (n, v)

theorem get?_found_rev (d : ADict) (target : Option Str) (l : List (Str × AVal)) (k : Str) (v : AVal)
    (hl : ∀ a w, (a, w) ∈ l → valueOf d target a = some w) (h : Dict.get? l k = some v) : valueOf d target k = some v :=
  hl k v (Dict.mem_of_get? l k v h)

/-- The heart of C30, in terms of the values found. -/
theorem xhtmlTag_eq (hg : GoodTargets targets) (ht : GoodTables targets hargs hopts) (name : Str) (d : ADict)
    (target : Option Str) (hT : ∀ T, target = some T → stripDots T ∈ targets) (content : List (Part α)) :
    xhtmlTag targets (nameTable hargs) (nameTable hopts) name d target content =
      (if name ∈ hargs.keys ∨ name ∈ hopts.keys then
        if ∃ r ∈ namesOf hargs name, valueOf d target r = none then .error .arguments
        else match setAttrs [] (foundAttrs d target (namesOf hargs name) ++ foundAttrs d target (namesOf hopts name)) with
          | .error e => .error e
          | .ok attrs => .ok ⟨name, attrs, cleanParts content⟩
      else
        match setAttrs [] (foundAttrs d target (namesOf hopts "span".toList) ++
          if "class".toList ∈ namesOf hopts "span".toList ∧ valueOf d target "class".toList ≠ none then [] else
            [("class".toList, .str name)]) with
          | .error e => .error e
          | .ok attrs => .ok ⟨"span".toList, attrs, cleanParts content⟩) := by
  have hfind : ∀ t ∈ [hargs, hopts], ∀ n, ((t.get? n).map (·.map Query.name)).map
      (fun a => Attrs.filter targets d (some a) target (sortByAttrs := true)) = (t.get? n).map (foundAttrs d target) :=
    fun t htt n => find_names targets hg d target hT (t.get? n) (fun l h => ht.nodup t htt n l h) (fun l h => ht.plain t htt n l h)
  have hlen : ∀ l : List Str, (foundAttrs d target l).length ≠ l.length ↔ ∃ r ∈ l, valueOf d target r = none := by
    intro l
    unfold foundAttrs
    induction l with
    | nil => simp
    | cons a l ih =>
      rw [List.filterMap_cons]
      cases hv : valueOf d target a with
      | none =>
        have := List.length_filterMap_le (fun n => (valueOf d target n).map fun v => (n, v)) l
        simp only [Option.map_none, List.length_cons]
        exact ⟨fun _ => ⟨a, by simp, hv⟩, fun _ => by omega⟩
      | some v =>
        simp only [Option.map_some, List.length_cons]
        rw [show ((l.filterMap fun n => (valueOf d target n).map fun v => (n, v)).length + 1 ≠ l.length + 1) ↔
          ((l.filterMap fun n => (valueOf d target n).map fun v => (n, v)).length ≠ l.length) by omega, ih]
        constructor
        · rintro ⟨r, hr, h⟩; exact ⟨r, by simp [hr], h⟩
        · rintro ⟨r, hr, h⟩
          rcases List.mem_cons.1 hr with rfl | hr
          · rw [hv] at h; simp at h
          · exact ⟨r, hr, h⟩
  by_cases hal : name ∈ hargs.keys ∨ name ∈ hopts.keys
  · have hallow : ((nameTable hargs).has name || (nameTable hopts).has name) = true := by
      rw [Bool.or_eq_true, has_nameTable, has_nameTable]; exact hal
    rw [if_pos hal]
    unfold xhtmlTag
    simp only [hallow]
    rw [lookup_allowed hargs true name (Or.inl rfl), lookup_allowed hopts true name (Or.inl rfl),
      hfind hargs (by simp) name, hfind hopts (by simp) name]
    have hopt : ((hopts.get? name).map (foundAttrs d target)).getD [] = foundAttrs d target (namesOf hopts name) := by
      unfold namesOf
      cases hopts.get? name <;> rfl
    rw [hopt]
    cases hr : hargs.get? name with
    | none =>
      have hno : namesOf hargs name = [] := by unfold namesOf; rw [hr]; rfl
      simp only [Option.map_none, hno, Option.getD_none, Bool.not_true, Bool.false_and, List.append_nil,
        Bool.false_eq_true, if_false, if_true]
      rw [if_neg (by simp)]
      rfl
    | some a =>
      have hno : namesOf hargs name = a := by unfold namesOf; rw [hr]; rfl
      have hga : (nameTable hargs).get? name = some (a.map .name) := by
        unfold nameTable; rw [get?_map, hr]; rfl
      simp only [Option.map_some, hno, Option.getD_some, hga, List.length_map, hlen]
      by_cases hex : ∃ r ∈ a, valueOf d target r = none
      · rw [if_pos hex, if_pos hex]
      · rw [if_neg hex, if_neg hex]
        simp only [Option.getD_some, Bool.not_true, Bool.false_and, List.append_nil, Bool.false_eq_true, if_false, if_true]
        rfl
  · have h1 : name ∉ hargs.keys := fun h => hal (Or.inl h)
    have h2 : name ∉ hopts.keys := fun h => hal (Or.inr h)
    have hallow : ((nameTable hargs).has name || (nameTable hopts).has name) = false := by
      cases hb : ((nameTable hargs).has name || (nameTable hopts).has name) with
      | false => rfl
      | true => rw [Bool.or_eq_true, has_nameTable, has_nameTable] at hb; exact absurd hb hal
    rw [if_neg hal]
    unfold xhtmlTag
    simp only [hallow]
    rw [lookup_span hargs name h1, lookup_span hopts name h2, (Dict.get?_eq_none_iff hargs _).2 ht.span,
      hfind hopts (by simp) "span".toList]
    have hopt : ((hopts.get? "span".toList).map (foundAttrs d target)).getD [] = foundAttrs d target (namesOf hopts "span".toList) := by
      unfold namesOf
      cases hopts.get? "span".toList <;> rfl
    rw [hopt]
    have hcls : (foundAttrs d target (namesOf hopts "span".toList)).has "class".toList = true ↔
        ("class".toList ∈ namesOf hopts "span".toList ∧ valueOf d target "class".toList ≠ none) := by
      rw [Dict.has_iff]
      unfold Dict.keys
      rw [List.mem_map]
      constructor
      · rintro ⟨⟨k, v⟩, hkv, hk⟩
        simp only at hk
        subst hk
        have := (mem_values d target _ _ v).1 hkv
        exact ⟨this.1, by rw [this.2]; simp⟩
      · rintro ⟨hm, hne⟩
        cases hv : valueOf d target "class".toList with
        | none => exact absurd hv hne
        | some v => exact ⟨("class".toList, v), (mem_values d target _ _ v).2 ⟨hm, hv⟩, rfl⟩
    simp only [Option.map_none, Option.getD_none, Bool.not_false, Bool.true_and, List.nil_append]
    have hempty : Dict.has ([] : ADict) "class".toList = false := rfl
    rw [hempty, Bool.false_or]
    by_cases hc : "class".toList ∈ namesOf hopts "span".toList ∧ valueOf d target "class".toList ≠ none
    · rw [if_pos hc]
      rw [hcls.2 hc]
      simp only [Bool.not_true, List.append_nil, Bool.false_eq_true, if_false]
      rfl
    · rw [if_neg hc]
      have : (foundAttrs d target (namesOf hopts "span".toList)).has "class".toList = false := by
        cases hb : (foundAttrs d target (namesOf hopts "span".toList)).has "class".toList with
        | false => rfl
        | true => exact absurd (hcls.1 hb) hc
      rw [this]
      simp only [Bool.not_false, Bool.false_eq_true, if_false, if_true]
      rfl

theorem setAttrs_get (d : ADict) (target : Option Str) (l : ADict) (r : Dict Str Str)
    (hl : ∀ a w, (a, w) ∈ l → valueOf d target a = some w) (h : setAttrs [] l = .ok r) (k v : Str) :
    r.get? k = some v ↔ k ∈ l.keys ∧ valueOf d target k = some (.str v) := by
  obtain ⟨h1, h2⟩ := setAttrs_ok l [] r h
  rw [h2 k]
  have hmem : k ∈ l.keys ↔ k ∈ Dict.keys l.reverse := by simp [Dict.keys]
  cases hg : Dict.get? l.reverse k with
  | none =>
    have : k ∉ Dict.keys l.reverse := (Dict.get?_eq_none_iff _ _).1 hg
    rw [hmem]
    simp [this]
  | some w =>
    have hw : (k, w) ∈ l := by
      have := Dict.mem_of_get? _ _ _ hg
      simpa using this
    obtain ⟨s, rfl⟩ := h1 k w hw
    have hv := hl k _ hw
    simp only [Option.some.injEq, hv, AVal.str.injEq]
    exact ⟨fun h => ⟨List.mem_map_of_mem (f := Prod.fst) hw, h⟩, fun h => h.2⟩

theorem keys_found (d : ADict) (target : Option Str) (l : List Str) (k : Str) (h : valueOf d target k ≠ none) :
    k ∈ Dict.keys (foundAttrs d target l) ↔ k ∈ l := by
  unfold Dict.keys
  rw [List.mem_map]
  constructor
  · rintro ⟨⟨a, v⟩, hm, rfl⟩
    exact ((mem_values d target l a v).1 hm).1
  · intro hk
    cases hv : valueOf d target k with
    | none => exact absurd hv h
    | some v => exact ⟨(k, v), (mem_values d target l k v).2 ⟨hk, hv⟩, rfl⟩

/-- C30. When an element is made: its name is the one asked for if that is allowed, and `span` else; its attributes are
exactly the allowed ones that have a value for the target, with that value, and the name as the class of a name
that is not allowed if there is no other class; and its content has every part that is not empty, in order. -/
theorem C30_element (hg : GoodTargets targets) (ht : GoodTables targets hargs hopts) (name : Str) (d : ADict)
    (target : Option Str) (hT : ∀ T, target = some T → stripDots T ∈ targets) (content : List (Part α)) (e : Elem α)
    (h : xhtmlTag targets (nameTable hargs) (nameTable hopts) name d target content = .ok e) :
    (e.name = if name ∈ hargs.keys ∨ name ∈ hopts.keys then name else "span".toList) ∧
    (∀ k v, e.attrs.get? k = some v ↔
      (k ∈ allowedAttrs hargs hopts name ∧ valueOf d target k = some (.str v)) ∨
      (¬ (name ∈ hargs.keys ∨ name ∈ hopts.keys) ∧ k = "class".toList ∧ v = name ∧
        ¬ ("class".toList ∈ allowedAttrs hargs hopts name ∧ valueOf d target "class".toList ≠ none))) ∧
    e.content = content.filter (fun p => match p with | .text s => !s.isEmpty | .none => false | .elem _ => true) := by
  rw [xhtmlTag_eq targets hargs hopts hg ht name d target hT content] at h
  by_cases hal : name ∈ hargs.keys ∨ name ∈ hopts.keys
  · rw [if_pos hal] at h
    split at h
    · simp at h
    · split at h
      · simp at h
      · rename_i attrs hset
        simp only [Except.ok.injEq] at h
        subst h
        refine ⟨by rw [if_pos hal], ?_, rfl⟩
        intro k v
        have hl : ∀ a w, (a, w) ∈ foundAttrs d target (namesOf hargs name) ++ foundAttrs d target (namesOf hopts name) →
            valueOf d target a = some w := by
          intro a w hm
          rcases List.mem_append.1 hm with hm | hm
          · exact ((mem_values d target _ a w).1 hm).2
          · exact ((mem_values d target _ a w).1 hm).2
        rw [setAttrs_get d target _ attrs hl hset k v]
        unfold allowedAttrs
        rw [if_pos hal]
        constructor
        · rintro ⟨hk, hv⟩
          refine Or.inl ⟨?_, hv⟩
          unfold Dict.keys at hk
          rw [List.map_append, List.mem_append] at hk
          rw [List.mem_append]
          exact hk.imp (keys_found d target _ k (by rw [hv]; simp)).1 (keys_found d target _ k (by rw [hv]; simp)).1
        · rintro (⟨hk, hv⟩ | ⟨hno, _⟩)
          · refine ⟨?_, hv⟩
            unfold Dict.keys
            rw [List.map_append, List.mem_append]
            rw [List.mem_append] at hk
            exact hk.imp (keys_found d target _ k (by rw [hv]; simp)).2 (keys_found d target _ k (by rw [hv]; simp)).2
          · exact absurd hal hno
  · rw [if_neg hal] at h
    split at h
    · simp at h
    · rename_i attrs hset
      simp only [Except.ok.injEq] at h
      subst h
      refine ⟨by rw [if_neg hal], ?_, rfl⟩
      intro k v
      have hall : allowedAttrs hargs hopts name = namesOf hopts "span".toList := by
        unfold allowedAttrs; rw [if_neg hal]
      rw [hall]
      by_cases hc : "class".toList ∈ namesOf hopts "span".toList ∧ valueOf d target "class".toList ≠ none
      · rw [if_pos hc, List.append_nil] at hset
        rw [setAttrs_get d target _ attrs (fun a w hm => ((mem_values d target _ a w).1 hm).2) hset k v]
        constructor
        · rintro ⟨hk, hv⟩
          exact Or.inl ⟨(keys_found d target _ k (by rw [hv]; simp)).1 hk, hv⟩
        · rintro (⟨hk, hv⟩ | ⟨_, _, _, hno⟩)
          · exact ⟨(keys_found d target _ k (by rw [hv]; simp)).2 hk, hv⟩
          · exact absurd hc hno
      · rw [if_neg hc] at hset
        obtain ⟨h1, h2⟩ := setAttrs_ok _ [] attrs hset
        rw [h2 k, List.reverse_append, Dict.get?_append]
        simp only [List.reverse_cons, List.reverse_nil, List.nil_append, Dict.get?]
        by_cases hk : "class".toList = k
        · subst hk
          rw [if_pos rfl, Option.some_or]
          simp only [Option.some.injEq]
          constructor
          · intro hv; exact Or.inr ⟨hal, trivial, hv.symm, hc⟩
          · rintro (⟨hk, hv⟩ | ⟨_, _, hv, _⟩)
            · exact absurd ⟨hk, by rw [hv]; simp⟩ hc
            · exact hv.symm
        · rw [if_neg hk, Option.none_or]
          have hrest : (match Dict.get? (foundAttrs d target (namesOf hopts "span".toList)).reverse k with
              | some (.str s) => some s
              | _ => none) = some v ↔ k ∈ namesOf hopts "span".toList ∧ valueOf d target k = some (.str v) := by
            cases hgk : Dict.get? (foundAttrs d target (namesOf hopts "span".toList)).reverse k with
            | none =>
              have hnk : k ∉ Dict.keys (foundAttrs d target (namesOf hopts "span".toList)).reverse := (Dict.get?_eq_none_iff _ _).1 hgk
              constructor
              · intro h; simp at h
              · rintro ⟨hm, hv⟩
                exfalso
                apply hnk
                have := (keys_found d target (namesOf hopts "span".toList) k (by rw [hv]; simp)).2 hm
                unfold Dict.keys at this ⊢
                simpa using this
            | some w =>
              have hw : (k, w) ∈ foundAttrs d target (namesOf hopts "span".toList) := by
                have := Dict.mem_of_get? _ _ _ hgk
                simpa using this
              obtain ⟨s, rfl⟩ := h1 k w (List.mem_append_left _ hw)
              obtain ⟨hm, hv⟩ := (mem_values d target _ k _).1 hw
              simp only [Option.some.injEq, hv, AVal.str.injEq]
              exact ⟨fun h => ⟨hm, h⟩, fun h => h.2⟩
          constructor
          · intro h; exact Or.inl (hrest.1 h)
          · rintro (h | ⟨_, h, _⟩)
            · exact hrest.2 h
            · exact absurd h.symm hk

/-- C30. When there is no element: a required attribute of an allowed name is missing, or the value of an allowed
attribute is not text. -/
theorem C30_error (hg : GoodTargets targets) (ht : GoodTables targets hargs hopts) (name : Str) (d : ADict)
    (target : Option Str) (hT : ∀ T, target = some T → stripDots T ∈ targets) (content : List (Part α)) :
    (xhtmlTag targets (nameTable hargs) (nameTable hopts) name d target content = .error .arguments ↔
      ∃ r ∈ namesOf hargs name, valueOf d target r = none) ∧
    (xhtmlTag targets (nameTable hargs) (nameTable hopts) name d target content = .error .typeError ↔
      (¬ ∃ r ∈ namesOf hargs name, valueOf d target r = none) ∧
        ∃ k ∈ allowedAttrs hargs hopts name, ∃ t, valueOf d target k = some (.pos t)) ∧
    xhtmlTag targets (nameTable hargs) (nameTable hopts) name d target content ≠ .error .keyError := by
  rw [xhtmlTag_eq targets hargs hopts hg ht name d target hT content]
  have hno : ¬ (name ∈ hargs.keys ∨ name ∈ hopts.keys) → namesOf hargs name = [] := by
    intro h
    unfold namesOf
    rw [(Dict.get?_eq_none_iff _ _).2 fun h' => h (Or.inl h')]
    rfl
  by_cases hal : name ∈ hargs.keys ∨ name ∈ hopts.keys
  · rw [if_pos hal]
    have hall : allowedAttrs hargs hopts name = namesOf hargs name ++ namesOf hopts name := by
      unfold allowedAttrs; rw [if_pos hal]
    have hpos : (∃ k t, (k, AVal.pos t) ∈ foundAttrs d target (namesOf hargs name) ++ foundAttrs d target (namesOf hopts name)) ↔
        ∃ k ∈ allowedAttrs hargs hopts name, ∃ t, valueOf d target k = some (.pos t) := by
      rw [hall]
      constructor
      · rintro ⟨k, t, hm⟩
        rcases List.mem_append.1 hm with hm | hm
        · have := (mem_values d target _ k _).1 hm
          exact ⟨k, List.mem_append_left _ this.1, t, this.2⟩
        · have := (mem_values d target _ k _).1 hm
          exact ⟨k, List.mem_append_right _ this.1, t, this.2⟩
      · rintro ⟨k, hk, t, hv⟩
        refine ⟨k, t, ?_⟩
        rcases List.mem_append.1 hk with hk | hk
        · exact List.mem_append_left _ ((mem_values d target _ k _).2 ⟨hk, hv⟩)
        · exact List.mem_append_right _ ((mem_values d target _ k _).2 ⟨hk, hv⟩)
    have hiff := setAttrs_error (foundAttrs d target (namesOf hargs name) ++ foundAttrs d target (namesOf hopts name)) []
    by_cases hex : ∃ r ∈ namesOf hargs name, valueOf d target r = none
    · rw [if_pos hex]
      simp [hex]
    · rw [if_neg hex]
      rcases setAttrs_cases (foundAttrs d target (namesOf hargs name) ++ foundAttrs d target (namesOf hopts name)) [] with ⟨r, hr⟩ | hr
      · have hnp : ¬ ∃ k ∈ allowedAttrs hargs hopts name, ∃ t, valueOf d target k = some (.pos t) := by
          rw [← hpos, hiff, hr]; simp
        rw [hr]
        simp only [hex, hnp]
        simp
      · have hp := hpos.1 (hiff.2 hr)
        rw [hr]
        simp only [hex, hp]
        simp
  · rw [if_neg hal]
    have hall : allowedAttrs hargs hopts name = namesOf hopts "span".toList := by
      unfold allowedAttrs; rw [if_neg hal]
    have hex : ¬ ∃ r ∈ namesOf hargs name, valueOf d target r = none := by rw [hno hal]; simp
    generalize ho : (if "class".toList ∈ namesOf hopts "span".toList ∧ valueOf d target "class".toList ≠ none then [] else
            [("class".toList, AVal.str name)]) = other
    have hot : ∀ k t, (k, AVal.pos t) ∉ other := by
      intro k t
      rw [← ho]
      split
      · simp
      · simp
    have hpos : (∃ k t, (k, AVal.pos t) ∈ foundAttrs d target (namesOf hopts "span".toList) ++ other) ↔
        ∃ k ∈ allowedAttrs hargs hopts name, ∃ t, valueOf d target k = some (.pos t) := by
      rw [hall]
      constructor
      · rintro ⟨k, t, hm⟩
        rcases List.mem_append.1 hm with hm | hm
        · have := (mem_values d target _ k _).1 hm
          exact ⟨k, this.1, t, this.2⟩
        · exact absurd hm (hot k t)
      · rintro ⟨k, hk, t, hv⟩
        exact ⟨k, t, List.mem_append_left _ ((mem_values d target _ k _).2 ⟨hk, hv⟩)⟩
    have hiff := setAttrs_error (foundAttrs d target (namesOf hopts "span".toList) ++ other) []
    rcases setAttrs_cases (foundAttrs d target (namesOf hopts "span".toList) ++ other) [] with ⟨r, hr⟩ | hr
    · have hnp : ¬ ∃ k ∈ allowedAttrs hargs hopts name, ∃ t, valueOf d target k = some (.pos t) := by
        rw [← hpos, hiff, hr]; simp
      rw [hr]
      simp only [hex, hnp]
      simp
    · have hp := hpos.1 (hiff.2 hr)
      rw [hr]
      simp only [hex, hp]
      simp

end html

/-- The tables of the settings meet the hypotheses. -/
theorem C30_settings : GoodTables trackedTargets xhtmlArguments xhtmlOptionals where
  nodup := by
    intro t ht n l h
    have := Dict.mem_of_get? _ _ _ h
    simp at ht
    rcases ht with rfl | rfl
    · have hall : ∀ e ∈ xhtmlArguments, e.2.Nodup := by decide
      exact hall _ this
    · have hall : ∀ e ∈ xhtmlOptionals, e.2.Nodup := by decide
      exact hall _ this
  plain := by
    intro t ht n l h a ha
    rw [← isTargetSpecific_false_iff _ trackedTargets_good]
    have := Dict.mem_of_get? _ _ _ h
    simp at ht
    rcases ht with rfl | rfl
    · have hall : ∀ e ∈ xhtmlArguments, ∀ a ∈ e.2, isTargetSpecific trackedTargets a = false := by decide
      exact hall _ this a ha
    · have hall : ∀ e ∈ xhtmlOptionals, ∀ a ∈ e.2, isTargetSpecific trackedTargets a = false := by decide
      exact hall _ this a ha
  span := by decide

example : xhtmlTag (α := Unit) trackedTargets (nameTable xhtmlArguments) (nameTable xhtmlOptionals) "note".toList
    [("id".toList, .str "n1".toList), ("onclick".toList, .str "x".toList)] none [.text [], .text "hi".toList] =
    .ok ⟨"span".toList, [("id".toList, "n1".toList), ("class".toList, "note".toList)], [.text "hi".toList]⟩ := rfl

/-- Finding: tags are formatted without a target (`Tag.html_fmt`, `tag.py:326-328`), so that an attribute for html has no
effect in html. -/
theorem C30_html_entry_ignored :
    xhtmlTag (α := Unit) trackedTargets (nameTable xhtmlArguments) (nameTable xhtmlOptionals) "div".toList
      [("class.html".toList, .str "wide".toList)] none [] = .ok ⟨"div".toList, [], []⟩ ∧
    xhtmlTag (α := Unit) trackedTargets (nameTable xhtmlArguments) (nameTable xhtmlOptionals) "div".toList
      [("class.html".toList, .str "wide".toList)] (some "html".toList) [] =
        .ok ⟨"div".toList, [("class".toList, "wide".toList)], []⟩ := ⟨rfl, rfl⟩

/-! ### C31: widths -/

/-- The windows, without the list. -/
theorem htmlWidth_eq (p : Nat) : htmlWidth p =
    if 75 < p ∧ p ≤ 100 then some 100 else if 67 < p ∧ p ≤ 75 then some 75 else if 50 < p ∧ p ≤ 67 then some 66 else
    if 34 < p ∧ p ≤ 50 then some 50 else if 25 < p ∧ p ≤ 33 then some 33 else if 0 < p ∧ p ≤ 25 then some 25 else none := by
  unfold htmlWidth windows
  simp only [List.find?, ← Bool.decide_and]
  repeat' split
  all_goals simp_all <;> omega

theorem texWidth_eq (p : Nat) : texWidth p =
    if 0 < p ∧ p ≤ 25 then some 24 else if 25 < p ∧ p ≤ 33 then some 32 else if 34 < p ∧ p ≤ 50 then some 49 else
    if 50 < p ∧ p ≤ 67 then some 65 else if 67 < p ∧ p ≤ 75 then some 74 else if 75 < p ∧ p ≤ 100 then some 99 else none := by
  unfold texWidth windows
  simp only [List.foldl, ← Bool.decide_and, decide_eq_true_eq]

/-- C31. Every percentage from 1 to 100 but 34 has a class; it is as wide as asked for, up to one percent for thirds, and
the next smaller class would not be. Other percentages have none. -/
theorem C31_class_partial (p : Nat) :
    ((1 ≤ p ∧ p ≤ 100 ∧ p ≠ 34) ↔ (htmlWidth p).isSome) ∧
    (∀ w, htmlWidth p = some w → w ∈ [100, 75, 66, 50, 33, 25] ∧ p ≤ w + 1 ∧ (p ≠ 67 → p ≤ w) ∧
      ∀ w' ∈ [100, 75, 66, 50, 33, 25], w' < w → w' < p) := by
  rw [htmlWidth_eq]
  constructor
  · repeat' split
    all_goals simp <;> omega
  · intro w h
    repeat' split at h
    all_goals first
      | (simp only [Option.some.injEq] at h; subst h; refine ⟨by decide, by omega, by omega, ?_⟩
         intro w' hw' hlt; simp at hw'; omega)
      | simp at h

/-- C31. More width asked for never gives a narrower class. -/
theorem C31_monotone (p q w w' : Nat) (h : p ≤ q) (hp : htmlWidth p = some w) (hq : htmlWidth q = some w') : w ≤ w' := by
  rw [htmlWidth_eq] at hp hq
  repeat' split at hp
  all_goals first | (simp at hp; done) | skip
  all_goals simp only [Option.some.injEq] at hp; subst hp
  all_goals (repeat' split at hq)
  all_goals first | (simp at hq; done) | skip
  all_goals simp only [Option.some.injEq] at hq; omega

/-- C31. The two formats agree: the width in tex is one percent less, for the space between, and the windows do not
overlap, so that it does not matter that one function takes the first fit and the other the last. -/
theorem C31_same_windows (p : Nat) : texWidth p = (htmlWidth p).map (· - 1) := by
  rw [htmlWidth_eq, texWidth_eq]
  repeat' split
  all_goals first | omega | rfl

/-- Finding: 34 percent (and with it everything above 33) is in no window. -/
theorem C31_gap : htmlWidth 34 = none ∧ texWidth 34 = none ∧ htmlWidth 33 = some 33 ∧ htmlWidth 35 = some 50 := by
  decide

/-- Rounding up to a whole number. -/
theorem ceil_spec (q : Rat) (h : 0 ≤ q) : ∃ n : Nat, absCeil (some (.fin q)) = some (some n) ∧ q ≤ n ∧ (n : Rat) < q + 1 := by
  have hc : 0 ≤ q.ceil := by
    have := Rat.le_ceil (x := q)
    have h2 : ((0 : Int) : Rat) ≤ (q.ceil : Rat) := by
      rw [Rat.intCast_zero]
      exact Rat.le_trans h this
    exact Rat.intCast_le_intCast.1 h2
  obtain ⟨n, hn⟩ := Int.eq_ofNat_of_zero_le hc
  refine ⟨n, ?_, ?_, ?_⟩
  · show some (some q.ceil.natAbs) = _
    rw [hn]; rfl
  · have := Rat.le_ceil (x := q)
    rw [hn] at this
    exact this
  · have := Rat.ceil_lt (x := q)
    rw [hn] at this
    exact this

/-- C31. Percentages are rounded up to a whole number: those of numbers, of texts with a percent sign, and, times a hundred,
of texts without one. A text that is no number has none. -/
theorem C31_percentage (parse parsePct : Str → Option PyFloat) :
    (∀ q : Rat, 0 ≤ q → ∃ n : Nat, percentage parse parsePct (.num (.fin q)) = some (some n) ∧ q ≤ n ∧ (n : Rat) < q + 1) ∧
    (∀ s q, '%' ∈ s → parsePct s = some (.fin q) → 0 ≤ q →
      ∃ n : Nat, percentage parse parsePct (.str s) = some (some n) ∧ q ≤ n ∧ (n : Rat) < q + 1) ∧
    (∀ s q, '%' ∉ s → parse s = some (.fin q) → 0 ≤ q →
      ∃ n : Nat, percentage parse parsePct (.str s) = some (some n) ∧ q * 100 ≤ n ∧ (n : Rat) < q * 100 + 1) ∧
    (∀ s, (if '%' ∈ s then parsePct s else parse s) = none → percentage parse parsePct (.str s) = some none) := by
  refine ⟨fun q h => ceil_spec q h, ?_, ?_, ?_⟩
  · intro s q hs hp h
    obtain ⟨n, h1, h2⟩ := ceil_spec q h
    exact ⟨n, by unfold percentage; simp only [if_pos hs, hp, h1], h2⟩
  · intro s q hs hp h
    obtain ⟨n, h1, h2⟩ := ceil_spec (q * 100) (Rat.mul_nonneg h (by decide))
    exact ⟨n, by unfold percentage; simp only [if_neg hs, hp]; exact h1, h2⟩
  · intro s h
    unfold percentage
    by_cases hs : '%' ∈ s
    · simp only [if_pos hs] at h ⊢; rw [h]; rfl
    · simp only [if_neg hs] at h ⊢; rw [h]; rfl

/-- C31. In html, the class of the width is added to the classes that are there, and nothing else changes; without a
class for the width, nothing changes at all. -/
theorem C31_html (parse parsePct : Str → Option PyFloat) (targets : Targets) (d : ADict) (target w : Str) (p : Nat)
    (hw : Attrs.get targets d (.name "width".toList) (some target) = some (.str w))
    (hp : percentage parse parsePct (.str w) = some (some p)) :
    (htmlWidth p = none → xhtmlPercentwidth parse parsePct targets d target = some d) ∧
    (∀ c, htmlWidth p = some c → ∀ old, (d.get? "class".toList = none ∧ old = [] ∨
        ∃ o, d.get? "class".toList = some (.str o) ∧ old = o ++ [' ']) →
      ∃ d', xhtmlPercentwidth parse parsePct targets d target = some d' ∧
        d'.get? "class".toList = some (.str (old ++ 'w' :: Nat.toDigits 10 c)) ∧
        ∀ k, k ≠ "class".toList → d'.get? k = d.get? k) := by
  have other : ∀ (v : AVal) k, k ≠ "class".toList → (d.set "class".toList v).get? k = d.get? k := by
    intro v k hk
    rw [Dict.get?_set, if_neg (by first | exact hk | exact Ne.symm hk)]
  unfold xhtmlPercentwidth
  rw [hw]; simp only [hp]
  constructor
  · intro h; rw [h]
  · intro c h old ho
    rw [h]
    rcases ho with ⟨ho, rfl⟩ | ⟨o, ho, rfl⟩
    · rw [ho]
      exact ⟨_, rfl, by rw [Dict.get?_set_self]; rfl, other _⟩
    · rw [ho]
      exact ⟨_, rfl, by rw [Dict.get?_set_self]; simp [htmlClass], other _⟩

/-- C31. In tex, the width is the part of the width of the text, less a hundredth, or the text given if it is no
percentage; it replaces the width or is added as a positional value, and nothing else changes. -/
theorem C31_tex (parse parsePct : Str → Option PyFloat) (clsStr : PType → Str) (targets : Targets) (d : ADict) (target w : Str)
    (r : Option Nat) (hw : Attrs.get targets d (.name "width".toList) (some target) = some (.str w))
    (hp : percentage parse parsePct (.str w) = some r) :
    ∃ s, (∀ p c, r = some p → htmlWidth p = some c → s = "0.".toList ++ Nat.toDigits 10 (c - 1) ++ "\\textwidth".toList) ∧
      ((∀ p, r = some p → htmlWidth p = none) → s = w) ∧
      (∃ d', texPercentwidth parse parsePct clsStr targets d target false = some d' ∧
        d'.get? "width".toList = some (.str s) ∧ ∀ k, k ≠ "width".toList → d'.get? k = d.get? k) ∧
      (∃ d', texPercentwidth parse parsePct clsStr targets d target true = some d' ∧
        d'.get? s = some (.pos .string) ∧ ∀ k, k ≠ s → d'.get? k = d.get? k) := by
  have other : ∀ (k' : Str) (v : AVal) k, k ≠ k' → (d.set k' v).get? k = d.get? k := by
    intro k' v k hk
    rw [Dict.get?_set, if_neg (by first | exact hk | exact Ne.symm hk)]
  have key : ∀ pos, texPercentwidth parse parsePct clsStr targets d target pos =
      some (if pos then d.set (match r.bind texWidth with | some f => texWidthStr f | none => w) (.pos .string)
        else d.set "width".toList (.str (match r.bind texWidth with | some f => texWidthStr f | none => w))) := by
    intro pos
    unfold texPercentwidth
    rw [hw]; simp only [hp]
    cases r.bind texWidth <;> rfl
  refine ⟨match r.bind texWidth with | some f => texWidthStr f | none => w, ?_, ?_, ⟨_, key false, ?_, ?_⟩, ⟨_, key true, ?_, ?_⟩⟩
  · rintro p c rfl hc
    have : (some p).bind texWidth = some (c - 1) := by
      show texWidth p = _
      rw [C31_same_windows, hc]; rfl
    rw [this]; rfl
  · intro h
    cases r with
    | none => rfl
    | some p =>
      have : (some p).bind texWidth = none := by
        show texWidth p = _
        rw [C31_same_windows, h p rfl]; rfl
      rw [this]
  · exact Dict.get?_set_self ..
  · exact other _ _
  · exact Dict.get?_set_self ..
  · exact other _ _

/-- Without a width nothing changes. -/
theorem C31_no_width (parse parsePct : Str → Option PyFloat) (clsStr : PType → Str) (targets : Targets) (d : ADict) (target : Str)
    (pos : Bool) (hw : Attrs.get targets d (.name "width".toList) (some target) = none) :
    xhtmlPercentwidth parse parsePct targets d target = some d ∧
    texPercentwidth parse parsePct clsStr targets d target pos = some d := by
  unfold xhtmlPercentwidth texPercentwidth
  rw [hw]
  exact ⟨rfl, rfl⟩

/-- C31. The error of a width that is no number is reported, and so is a class that is not text, if a class for the width has to
be added. -/
theorem C31_errors (parse parsePct : Str → Option PyFloat) (clsStr : PType → Str) (targets : Targets) (d : ADict) (target w : Str)
    (hw : Attrs.get targets d (.name "width".toList) (some target) = some (.str w)) :
    (percentage parse parsePct (.str w) = none → xhtmlPercentwidth parse parsePct targets d target = none ∧
      ∀ pos, texPercentwidth parse parsePct clsStr targets d target pos = none) ∧
    (∀ p c t, percentage parse parsePct (.str w) = some (some p) → htmlWidth p = some c → d.get? "class".toList = some (.pos t) →
      xhtmlPercentwidth parse parsePct targets d target = none) := by
  constructor
  · intro h
    refine ⟨?_, fun pos => ?_⟩
    · unfold xhtmlPercentwidth; rw [hw]; simp only [h]
    · unfold texPercentwidth; rw [hw]; simp only [h]
  · intro p c t h1 h2 h3
    unfold xhtmlPercentwidth; rw [hw]; simp only [h1]
    rw [h2]; simp only [h3]

/-- Such a width and such a class. -/
example : xhtmlPercentwidth (fun _ => none) (fun _ => some .inf) trackedTargets
    [("width".toList, .str "inf%".toList)] "html".toList = none ∧
    xhtmlPercentwidth (fun _ => none) (fun _ => some (.fin 50)) trackedTargets
    [("width".toList, .str "50%".toList), ("class".toList, .pos .string)] "html".toList = none := by decide

/-- A width of 50% in a dict with a class. -/
example : xhtmlPercentwidth (fun _ => none) (fun _ => some (.fin 50)) trackedTargets
    [("width".toList, .str "50%".toList), ("class".toList, .str "a".toList)] "html".toList =
    some [("width".toList, .str "50%".toList), ("class".toList, .str "a w50".toList)] := by decide

/-- Finding: a negative width has the class of its absolute value, and an infinite one is an error. -/
theorem C31_negative (parse parsePct : Str → Option PyFloat) :
    percentage parse parsePct (.num (.fin (-50))) = some (some 50) ∧ htmlWidth 50 = some 50 ∧
    percentage parse parsePct (.num .inf) = none ∧ percentage parse parsePct (.num .nan) = some none := by
  refine ⟨?_, by decide, rfl, rfl⟩
  show some (some ((-50 : Rat).ceil.natAbs)) = _
  decide

example : htmlClass 75 = "w75".toList := by decide

end Verif.Formats
