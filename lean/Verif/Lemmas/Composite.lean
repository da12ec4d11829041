import Verif.Spec.Composite
import Verif.Lemmas.RenderHtml
import Verif.Lemmas.Utils
import Verif.Props.Data

/-!
# Lemmas for captions, tables, lists and panels
-/

set_option linter.unusedSimpArgs false
set_option linter.unusedVariables false

namespace Verif.Composite

open Verif Verif.Attrs Verif.Attrs.Spec Verif.Formats Verif.Render Verif.Render.Spec Verif.Composite.Spec Verif.Parser.Spec

theorem bind_ok {ε α β : Type} {x : Except ε α} {f : α → Except ε β} {b : β} (h : x.bind f = .ok b) :
    ∃ a, x = .ok a ∧ f a = .ok b := by
  cases x with
  | error e => simp [Except.bind] at h
  | ok a => exact ⟨a, rfl, h⟩

theorem map_ok {ε α β : Type} {x : Except ε α} {f : α → β} {b : β} (h : x.map f = .ok b) : ∃ a, x = .ok a ∧ b = f a := by
  cases x with
  | error e => simp [Except.map] at h
  | ok a => simp only [Except.map, Except.ok.injEq] at h; exact ⟨a, rfl, h.symm⟩

/-! ### Environments -/

theorem env_one (e : Str) (d : ADict) (x : Str) (h : texEnvArguments.get? e = some [.string]) (h2 : texEnvOptionals.get? e = none) :
    (∀ out, env e d x = .ok out → (∃ k, (k, AVal.pos .string) ∈ d) ∧ ∃ o y, ArgsOf d [.string] o ∧ OnLines x y ∧
      out = "\n\\begin{".toList ++ e ++ "}".toList ++ o ++ y ++ "\\end{".toList ++ e ++ "}\n".toList) ∧
    ((∃ k, (k, AVal.pos .string) ∈ d) → ∃ out, env e d x = .ok out) := by
  have hr := required_ok texEnvArguments e d [.string] h (Or.inr ⟨_, by decide, rfl⟩)
  have h1 : (posTable texEnvArguments).get? e = some [.pos .string] := by unfold posTable; rw [get?_map, h]; rfl
  have hh : ((posTable texEnvArguments).has e) = true := by simp [Dict.has, h1]
  have ho : optionalStr trackedTargets texEnvOptionals e d true = [] := by unfold optionalStr; rw [h2]
  unfold env texEnv
  rw [if_neg (by simp [hh]), ho]
  cases hq : requiredStr trackedTargets (posTable texEnvArguments) e d with
  | error err =>
    refine ⟨by intro out ho; simp [Except.mapError] at ho, ?_⟩
    intro hk
    obtain ⟨o, ho⟩ := hr.2 (by simpa using hk)
    rw [hq] at ho; simp at ho
  | ok o =>
    refine ⟨?_, fun _ => ⟨_, rfl⟩⟩
    intro out ho
    simp only [Except.mapError, Except.ok.injEq] at ho
    obtain ⟨a, b⟩ := hr.1 o hq
    refine ⟨b _ (by simp), o, _, a, onLines x, ?_⟩
    rw [← ho]
    simp

theorem columns_args (n : Nat) (o : Str) (h : ArgsOf (columns n) [.string] o) : o = "{".toList ++ List.replicate n 'l' ++ "}".toList := by
  obtain ⟨ws, h1, h2, rfl⟩ := h
  have hl : ∃ w, ws = [w] := List.length_eq_one_iff.1 (by simpa using congrArg List.length h1)
  obtain ⟨w, rfl⟩ := hl
  · obtain ⟨x, hm, hx⟩ := h2 w (by simp)
    unfold columns at hm
    split at hm
    · simp at hm
    · simp only [List.mem_singleton, Prod.mk.injEq] at hm
      rcases hx with rfl | ⟨T, _, rfl⟩
      · have := hm.1
        simp only [List.append_nil] at this
        simp [this]
      · have : '.' ∈ List.replicate n 'l' := by rw [← hm.1]; simp
        rw [List.mem_replicate] at this
        exact absurd this.2 (by decide)

theorem env_tabular (n : Nat) (x : Str) :
    (∀ out, env "tabular".toList (columns n) x = .ok out → n ≠ 0 ∧ ∃ y, OnLines x y ∧
      out = "\n\\begin{tabular}{".toList ++ List.replicate n 'l' ++ "}".toList ++ y ++ "\\end{tabular}\n".toList) ∧
    (n ≠ 0 → ∃ out, env "tabular".toList (columns n) x = .ok out) := by
  have h := env_one "tabular".toList (columns n) x (by decide) (by decide)
  refine ⟨?_, ?_⟩
  · intro out ho
    obtain ⟨⟨k, hk⟩, o, y, h1, h2, rfl⟩ := h.1 out ho
    refine ⟨?_, y, h2, ?_⟩
    · rintro rfl
      simp [columns] at hk
    · rw [columns_args n o h1]
      simp
  · intro hn
    refine h.2 ⟨List.replicate n 'l', ?_⟩
    simp [columns, hn]

theorem env_easylist (x : Str) : ∃ y, OnLines x y ∧
    env "easylist".toList [("itemize".toList, .pos .string)] x =
      .ok ("\n\\begin{easylist}[itemize]".toList ++ y ++ "\\end{easylist}\n".toList) := by
  refine ⟨_, onLines x, ?_⟩
  have h1 : optionalStr trackedTargets texEnvOptionals "easylist".toList [("itemize".toList, .pos .string)] true = "[itemize]".toList := by
    decide +kernel
  have h2 : requiredStr trackedTargets (posTable texEnvArguments) "easylist".toList [("itemize".toList, .pos .string)] = .ok [] := by
    rfl
  unfold env texEnv
  rw [if_neg (by decide), h2, h1]
  simp [Except.mapError]

/-! ### LaTeX -/

theorem cellTex_eq (x : Str) : Data.cellTex x = escaped x := by
  unfold Data.cellTex escaped
  exact Data.replace_char '&' ['\\', '&'] x

theorem join_eq (sep : Str) (xs : List Str) : join sep xs = (xs.intersperse sep).flatten := by
  induction xs with
  | nil => rfl
  | cons x xs ih =>
    cases xs with
    | nil => simp [join, List.intersperse]
    | cons y ys => rw [join, ih]; simp [List.intersperse]; simp

theorem cellsTex_ok (sp : Char → Bool) (cs : List Node) (xs : List Str) (hs : ∀ c ∈ cs, Sayable c) (h : cellsTex sp cs = .ok xs) :
    CellsWritten sp cs xs ∧ ∀ c ∈ cs, Flat leaves (some false) c := by
  induction cs generalizing xs with
  | nil =>
    simp only [cellsTex, Except.ok.injEq] at h
    subst h
    exact ⟨.nil, by simp⟩
  | cons c cs ih =>
    obtain ⟨x, hx, h⟩ := bind_ok h
    obtain ⟨ys, hy, rfl⟩ := map_ok h
    obtain ⟨w, f⟩ := written sp false c x (hs c (by simp)) hx
    obtain ⟨w', f'⟩ := ih ys (fun c hc => hs c (by simp [hc])) hy
    rw [cellTex_eq]
    exact ⟨.cons c cs x ys w w', by simpa using ⟨f, f'⟩⟩

theorem cellsTex_exists (sp : Char → Bool) (cs : List Node) (h : ∀ c ∈ cs, Flat leaves (some false) c) :
    ∃ xs, cellsTex sp cs = .ok xs := by
  induction cs with
  | nil => exact ⟨[], rfl⟩
  | cons c cs ih =>
    obtain ⟨x, hx⟩ := flat_ok sp false c (h c (by simp))
    obtain ⟨xs, hxs⟩ := ih fun c hc => h c (by simp [hc])
    exact ⟨_, by unfold cellsTex; rw [hx, hxs]; rfl⟩

theorem rowTex_ok (sp : Char → Bool) (cs : List Node) (x : Str) (hs : ∀ c ∈ cs, Sayable c) (h : rowTex sp cs = .ok x) :
    RowWritten sp cs x ∧ ∀ c ∈ cs, Flat leaves (some false) c := by
  obtain ⟨xs, hx, rfl⟩ := map_ok h
  obtain ⟨w, f⟩ := cellsTex_ok sp cs xs hs hx
  exact ⟨⟨xs, w, by rw [join_eq]⟩, f⟩

theorem rowTex_exists (sp : Char → Bool) (cs : List Node) (h : ∀ c ∈ cs, Flat leaves (some false) c) :
    ∃ x, rowTex sp cs = .ok x := by
  obtain ⟨xs, hx⟩ := cellsTex_exists sp cs h
  exact ⟨_, by unfold rowTex; rw [hx]; rfl⟩

theorem rowsTex_ok (sp : Char → Bool) (rs : List (List Node)) (x : Str) (hs : ∀ r ∈ rs, ∀ c ∈ r, Sayable c) (h : rowsTex sp rs = .ok x) :
    RowsWritten sp rs x ∧ ∀ r ∈ rs, ∀ c ∈ r, Flat leaves (some false) c := by
  induction rs generalizing x with
  | nil =>
    simp only [rowsTex, Except.ok.injEq] at h
    subst h
    exact ⟨.nil, by simp⟩
  | cons r rs ih =>
    obtain ⟨y, hy, h⟩ := bind_ok h
    obtain ⟨z, hz, rfl⟩ := map_ok h
    obtain ⟨w, f⟩ := rowTex_ok sp r y (hs r (by simp)) hy
    obtain ⟨w', f'⟩ := ih z (fun r hr => hs r (by simp [hr])) hz
    exact ⟨.cons r rs y z w w', by simpa using ⟨f, f'⟩⟩

theorem rowsTex_exists (sp : Char → Bool) (rs : List (List Node)) (h : ∀ r ∈ rs, ∀ c ∈ r, Flat leaves (some false) c) :
    ∃ x, rowsTex sp rs = .ok x := by
  induction rs with
  | nil => exact ⟨[], rfl⟩
  | cons r rs ih =>
    obtain ⟨x, hx⟩ := rowTex_exists sp r (h r (by simp))
    obtain ⟨y, hy⟩ := ih fun r hr => h r (by simp [hr])
    exact ⟨_, by unfold rowsTex; rw [hx, Except.bind, hy]; rfl⟩

theorem dataTex_ok (sp : Char → Bool) (c : Cells) (t out : Str) (hs : (∀ h, c.header = some h → ∀ n ∈ h, Sayable n) ∧
    ∀ r ∈ c.rows, ∀ n ∈ r, Sayable n) (h : dataTex sp c = .ok t) (he : env "tabular".toList (columns c.cols) t = .ok out) :
    DataWritten sp c out ∧ c.cols ≠ 0 ∧ (∀ h, c.header = some h → ∀ n ∈ h, Flat leaves (some false) n) ∧
    ∀ r ∈ c.rows, ∀ n ∈ r, Flat leaves (some false) n := by
  obtain ⟨hn, y, hy, rfl⟩ := (env_tabular c.cols t).1 out he
  obtain ⟨hd, h1, h⟩ := bind_ok h
  obtain ⟨r, hr, rfl⟩ := map_ok h
  obtain ⟨w, f⟩ := rowsTex_ok sp c.rows r hs.2 hr
  cases hh : c.header with
  | none =>
    rw [hh] at h1
    simp only [Except.ok.injEq] at h1
    subst h1
    exact ⟨⟨[], r, y, fun _ => rfl, by simp [hh], w, hy, rfl⟩, hn, by simp, f⟩
  | some cells =>
    rw [hh] at h1
    simp only at h1
    obtain ⟨x, hx, rfl⟩ := map_ok h1
    obtain ⟨w', f'⟩ := rowTex_ok sp cells x (hs.1 cells hh) hx
    refine ⟨⟨_, r, y, by simp [hh], ?_, w, hy, rfl⟩, hn, ?_, f⟩
    · intro cells' hc
      rw [hh] at hc
      simp only [Option.some.injEq] at hc
      subst hc
      exact ⟨x, w', rfl⟩
    · intro h' hh'
      simp only [Option.some.injEq] at hh'
      subst hh'
      exact f'

theorem dataTex_exists (sp : Char → Bool) (c : Cells) (hn : c.cols ≠ 0)
    (h1 : ∀ h, c.header = some h → ∀ n ∈ h, Flat leaves (some false) n)
    (h2 : ∀ r ∈ c.rows, ∀ n ∈ r, Flat leaves (some false) n) :
    ∃ t out, dataTex sp c = .ok t ∧ env "tabular".toList (columns c.cols) t = .ok out := by
  obtain ⟨r, hr⟩ := rowsTex_exists sp c.rows h2
  have : ∃ t, dataTex sp c = .ok t := by
    unfold dataTex
    cases hh : c.header with
    | none =>
      simp only [Except.bind]
      rw [hr]
      exact ⟨_, rfl⟩
    | some cells =>
      obtain ⟨x, hx⟩ := rowTex_exists sp cells (h1 cells hh)
      simp only [hx, Except.map, Except.bind]
      rw [hr]
      exact ⟨_, rfl⟩
  obtain ⟨t, ht⟩ := this
  obtain ⟨out, ho⟩ := (env_tabular c.cols t).2 hn
  exact ⟨t, out, ht, ho⟩

theorem joinParts_chars (x : Str) (l : List Node) : joinParts (x.map (fun ch => Node.str [ch]) ++ l) = (joinParts l).map (x ++ ·) := by
  induction x with
  | nil => cases h : joinParts l <;> simp [h, Except.map]
  | cons c x ih =>
    simp only [List.map_cons, List.cons_append, joinParts, ih]
    cases joinParts l <;> simp [Except.map]

/-- What the items of a table need. -/
def ItemFine : Item → Prop
  | .data c => c.cols ≠ 0 ∧ (∀ h, c.header = some h → ∀ n ∈ h, Flat leaves (some false) n) ∧
      ∀ r ∈ c.rows, ∀ n ∈ r, Flat leaves (some false) n
  | .node n => Flat leaves (some false) n

theorem itemsTex_node (sp : Char → Bool) (n : Node) (l : List Item) (hn : ¬ IsList n) :
    itemsTex sp (.node n :: l) = (texFmt sp false n).bind fun x => (itemsTex sp l).map (.str x :: ·) := by
  cases n with
  | list l' => exact absurd ⟨l', rfl⟩ hn
  | str s => simp only [itemsTex, texFmt, Except.bind]
  | tag k nm d c => simp only [itemsTex]
  | eq b nm d col c html => simp only [itemsTex]
  | other ts tx html => simp only [itemsTex]

theorem itemsTex_ok (sp : Char → Bool) (items : List Item) (l : List Node) (x : Str) (hs : AllItems Sayable items)
    (h : itemsTex sp items = .ok l) (hj : joinParts l = .ok x) :
    ItemsWritten sp items x ∧ (∀ i ∈ items, ItemFine i) ∧ ∀ i ∈ items, ∀ l', i ≠ .node (.list l') := by
  induction items generalizing l x with
  | nil =>
    simp only [itemsTex, Except.ok.injEq] at h
    subst h
    simp only [joinParts, Except.ok.injEq] at hj
    subst hj
    exact ⟨.nil, by simp, by simp⟩
  | cons i items ih =>
    have hs' : AllItems Sayable items := fun j hj => hs j (by simp [hj])
    cases i with
    | data c =>
      simp only [itemsTex] at h
      obtain ⟨t, ht, h⟩ := bind_ok h
      obtain ⟨y, hy, h⟩ := bind_ok h
      obtain ⟨r, hr, rfl⟩ := map_ok h
      rw [joinParts_chars] at hj
      obtain ⟨z, hz, rfl⟩ := map_ok hj
      obtain ⟨w, f⟩ := dataTex_ok sp c t y ((hs (.data c) (by simp)).2 c rfl) ht hy
      obtain ⟨w', f', f''⟩ := ih r z hs' hr hz
      exact ⟨.data c items y z w w', by simpa [ItemFine] using ⟨f, f'⟩, by simpa using f''⟩
    | node n =>
      by_cases hn : IsList n
      · obtain ⟨l', rfl⟩ := hn
        simp only [itemsTex] at h
        obtain ⟨r, hr, rfl⟩ := map_ok h
        simp [joinParts] at hj
      · rw [itemsTex_node sp n items hn] at h
        obtain ⟨y, hy, h⟩ := bind_ok h
        obtain ⟨r, hr, rfl⟩ := map_ok h
        simp only [joinParts] at hj
        obtain ⟨z, hz, rfl⟩ := map_ok hj
        obtain ⟨w, f⟩ := written sp false n y ((hs (.node n) (by simp)).1 n rfl) hy
        obtain ⟨w', f', f''⟩ := ih r z hs' hr hz
        refine ⟨.node n items y z w w', by simpa [ItemFine] using ⟨f, f'⟩, ?_⟩
        intro i hi l'
        rcases List.mem_cons.1 hi with rfl | hi
        · intro he
          simp only [Item.node.injEq] at he
          exact hn ⟨l', he⟩
        · exact f'' i hi l'

theorem itemsTex_exists (sp : Char → Bool) (items : List Item) (h : ∀ i ∈ items, ItemFine i)
    (hl : ∀ i ∈ items, ∀ l', i ≠ .node (.list l')) : ∃ l x, itemsTex sp items = .ok l ∧ joinParts l = .ok x ∧ ∀ l', l ≠ [.list l'] := by
  induction items with
  | nil => exact ⟨[], [], rfl, rfl, by simp⟩
  | cons i items ih =>
    obtain ⟨l, x, h1, h2, _⟩ := ih (fun i hi => h i (by simp [hi])) (fun i hi => hl i (by simp [hi]))
    cases i with
    | data c =>
      obtain ⟨f1, f2, f3⟩ := h (.data c) (by simp)
      obtain ⟨t, y, ht, hy⟩ := dataTex_exists sp c f1 f2 f3
      refine ⟨y.map (fun ch => Node.str [ch]) ++ l, y ++ x, ?_, by rw [joinParts_chars, h2]; rfl, ?_⟩
      · simp only [itemsTex, ht, Except.bind, hy, h1, Except.map]
      · intro l' he
        obtain ⟨z, hz⟩ : ∃ z, joinParts (y.map (fun ch => Node.str [ch]) ++ l) = .ok z := ⟨_, by rw [joinParts_chars, h2]; rfl⟩
        rw [he] at hz
        simp [joinParts] at hz
    | node n =>
      have hn : ¬ IsList n := by
        rintro ⟨l', rfl⟩
        exact hl _ (by simp) l' rfl
      obtain ⟨y, hy⟩ := flat_ok sp false n (h (.node n) (by simp))
      refine ⟨.str y :: l, y ++ x, ?_, by simp [joinParts, h2, Except.map], by simp⟩
      rw [itemsTex_node sp n items hn, hy]
      simp only [Except.bind, h1, Except.map]

theorem table_env (k : Table) (d : ADict) (x : Str) : ∃ (e : String) (y : Str), (k, e) ∈ tableEnvs ∧ OnLines x y ∧
    env k.env d x = .ok ("\n\\begin{".toList ++ e.toList ++ "}".toList ++ y ++ "\\end{".toList ++ e.toList ++ "}\n".toList) := by
  cases k with
  | margin =>
    obtain ⟨y, hy, he⟩ := env_plain "margintable".toList d x (by decide) (by decide)
    exact ⟨"margintable", y, by simp [tableEnvs], hy, by rw [List.append_nil] at he; exact he⟩
  | plain =>
    obtain ⟨y, hy, he⟩ := env_plain "table".toList d x (by decide) (by decide)
    exact ⟨"table", y, by simp [tableEnvs], hy, by rw [List.append_nil] at he; exact he⟩
  | full =>
    obtain ⟨y, hy, he⟩ := env_plain "table*".toList d x (by decide) (by decide)
    exact ⟨"table*", y, by simp [tableEnvs], hy, by rw [List.append_nil] at he; exact he⟩

theorem tableTex_ok (sp : Char → Bool) (k : Table) (d : ADict) (items : List Item) (out : Str) (hs : AllItems Sayable items)
    (h : tableTex sp k d items = .ok out) :
    TableWritten sp k items out ∧ (∀ i ∈ items, ItemFine i) ∧
    ((∀ i ∈ items, ∀ l, i ≠ .node (.list l)) ∨ ∃ l, items = [.node (.list l)] ∧ ∀ n ∈ l, IsStr n) := by
  obtain ⟨l, hl, h⟩ := bind_ok h
  obtain ⟨x, hx, h⟩ := bind_ok h
  obtain ⟨e, y, h1, h2, h3⟩ := table_env k d x
  have hout : "\n\\begin{".toList ++ e.toList ++ "}".toList ++ y ++ "\\end{".toList ++ e.toList ++ "}\n".toList = out := by
    rw [h3] at h
    simpa only [Except.ok.injEq] using h
  by_cases hone : ∃ l', items = [.node (.list l')]
  · obtain ⟨l', rfl⟩ := hone
    simp only [itemsTex, Except.map, Except.ok.injEq] at hl
    subst hl
    have hx' : joinParts l' = .ok x := hx
    obtain ⟨w, f⟩ := (joinParts_strs sp false l').1 x hx'
    refine ⟨⟨e, x, y, h1, ?_, h2, hout.symm⟩, ?_, Or.inr ⟨l', rfl, f⟩⟩
    · have := ItemsWritten.node (.list l') [] x [] w .nil
      simpa using this
    · intro i hi
      simp only [List.mem_singleton] at hi
      subst hi
      have : texFmt sp false (.list [.list l']) = .ok x := by
        simp only [texFmt, texItems, Except.map, Except.bind]
        exact hx
      have hsl : Sayable (.list [.list l']) := by
        simp only [Sayable, SayableAll]
        exact ⟨(hs (.node (.list l')) (by simp)).1 _ rfl, trivial⟩
      have := (written sp false _ x hsl this).2
      simp only [Flat, FlatAll] at this
      simp only [ItemFine, Flat]
      exact this.2.1
  · have hj : joinParts l = .ok x := by
      rw [joinItems_other] at hx
      · exact hx
      · rintro l' rfl
        apply hone
        cases items with
        | nil => simp [itemsTex] at hl
        | cons i items =>
          cases i with
          | data c =>
            simp only [itemsTex] at hl
            obtain ⟨t, ht, h⟩ := bind_ok hl
            obtain ⟨y, hy, h⟩ := bind_ok h
            obtain ⟨r, hr, h⟩ := map_ok h
            obtain ⟨_, z, _, rfl⟩ := (env_tabular _ _).1 _ hy
            simp at h
          | node n =>
            by_cases hn : IsList n
            · obtain ⟨l'', rfl⟩ := hn
              simp only [itemsTex] at hl
              obtain ⟨r, hr, h⟩ := map_ok hl
              simp only [List.cons.injEq] at h
              obtain ⟨h1, rfl⟩ := h
              cases items with
              | nil => exact ⟨l'', rfl⟩
              | cons j items =>
                exfalso
                cases j with
                | data c =>
                  simp only [itemsTex] at hr
                  obtain ⟨t, ht, h⟩ := bind_ok hr
                  obtain ⟨y, hy, h⟩ := bind_ok h
                  obtain ⟨r, hr, h⟩ := map_ok h
                  obtain ⟨_, z, _, rfl⟩ := (env_tabular _ _).1 _ hy
                  simp at h
                | node m =>
                  by_cases hm : IsList m
                  · obtain ⟨l3, rfl⟩ := hm
                    simp only [itemsTex] at hr
                    obtain ⟨r, hr, h⟩ := map_ok hr
                    simp at h
                  · rw [itemsTex_node sp m items hm] at hr
                    obtain ⟨y, hy, h⟩ := bind_ok hr
                    obtain ⟨r, hr, h⟩ := map_ok h
                    simp at h
            · rw [itemsTex_node sp n items hn] at hl
              obtain ⟨y, hy, h⟩ := bind_ok hl
              obtain ⟨r, hr, h⟩ := map_ok h
              simp at h
    obtain ⟨w, f, f'⟩ := itemsTex_ok sp items l x hs hl hj
    exact ⟨⟨e, x, y, h1, w, h2, hout.symm⟩, f, Or.inl f'⟩

theorem tableTex_exists (sp : Char → Bool) (k : Table) (d : ADict) (items : List Item) (h : ∀ i ∈ items, ItemFine i)
    (hl : (∀ i ∈ items, ∀ l, i ≠ .node (.list l)) ∨ ∃ l, items = [.node (.list l)] ∧ ∀ n ∈ l, IsStr n) :
    ∃ out, tableTex sp k d items = .ok out := by
  have : ∃ l x, itemsTex sp items = .ok l ∧ joinItems l = .ok x := by
    rcases hl with hl | ⟨l, rfl, hl⟩
    · obtain ⟨l, x, h1, h2, h3⟩ := itemsTex_exists sp items h hl
      exact ⟨l, x, h1, by rw [joinItems_other l h3, h2]⟩
    · obtain ⟨x, hx⟩ := (joinParts_strs sp false l).2 hl
      exact ⟨[.list l], x, by simp only [itemsTex, Except.map], hx⟩
  obtain ⟨l, x, h1, h2⟩ := this
  obtain ⟨e, y, _, _, h3⟩ := table_env k d x
  exact ⟨_, by unfold tableTex; rw [h1]; simp only [Except.bind]; rw [h2]; simp only []; exact h3⟩

/-! ### Captions and lists in LaTeX -/

theorem captionTex_ok (sp : Char → Bool) (d : ADict) (label : Option Node) (content : Node) (anchor : Option Node) (math : Bool)
    (out : Str) (h1 : ∀ l, label = some l → Sayable l) (h2 : Sayable content) (h3 : ∀ i, anchor = some i → Sayable i)
    (h : captionTex sp d label content anchor math = .ok out) :
    CaptionWritten sp math label content anchor out ∧ (∀ l, label = some l → Flat leaves (some math) l) ∧
    Flat leaves (some math) content ∧ ∀ i, anchor = some i → Flat leaves (some math) i := by
  unfold captionTex at h
  obtain ⟨a, ha, h⟩ := bind_ok h
  obtain ⟨b, hb, h⟩ := bind_ok h
  obtain ⟨c, hc, h⟩ := bind_ok h
  rw [cmd_eq "caption".toList d (a ++ b) (by decide) (by decide)] at hc
  simp only [Except.ok.injEq] at hc
  obtain ⟨wb, fb⟩ := written sp math content b h2 hb
  have hl : WrittenOpt sp math label a ∧ ∀ l, label = some l → Flat leaves (some math) l := by
    cases label with
    | none =>
      simp only [optTex, Except.ok.injEq] at ha
      exact ⟨⟨fun _ => ha.symm, by simp⟩, by simp⟩
    | some l =>
      obtain ⟨w, f⟩ := written sp math l a (h1 l rfl) ha
      refine ⟨⟨by simp, ?_⟩, ?_⟩
      · rintro m ⟨⟩; exact w
      · rintro m ⟨⟩; exact f
  cases anchor with
  | none =>
    simp only [Except.ok.injEq] at h
    subst h
    refine ⟨⟨a, b, [], hl.1, wb, ⟨fun _ => rfl, by simp⟩, ?_⟩, hl.2, fb, by simp⟩
    rw [← hc]
    simp
  | some i =>
    obtain ⟨x, hx, h⟩ := bind_ok h
    obtain ⟨y, hy, rfl⟩ := map_ok h
    rw [cmd_eq "label".toList d x (by decide) (by decide)] at hy
    simp only [Except.ok.injEq] at hy
    obtain ⟨w, f⟩ := written sp math i x (h3 i rfl) hx
    refine ⟨⟨a, b, x, hl.1, wb, ⟨by simp, ?_⟩, ?_⟩, hl.2, fb, ?_⟩
    · rintro m ⟨⟩; exact w
    · rw [← hc, ← hy]
      simp
    · rintro m ⟨⟩; exact f

theorem captionTex_exists (sp : Char → Bool) (d : ADict) (label : Option Node) (content : Node) (anchor : Option Node) (math : Bool)
    (h1 : ∀ l, label = some l → Flat leaves (some math) l) (h2 : Flat leaves (some math) content)
    (h3 : ∀ i, anchor = some i → Flat leaves (some math) i) : ∃ out, captionTex sp d label content anchor math = .ok out := by
  obtain ⟨b, hb⟩ := flat_ok sp math content h2
  have hl : ∃ a, optTex sp math label = .ok a := by
    cases label with
    | none => exact ⟨[], rfl⟩
    | some l => exact flat_ok sp math l (h1 l rfl)
  obtain ⟨a, ha⟩ := hl
  unfold captionTex
  rw [ha]
  simp only [Except.bind]
  rw [hb]
  simp only []
  rw [cmd_eq "caption".toList d (a ++ b) (by decide) (by decide)]
  simp only []
  cases anchor with
  | none => exact ⟨_, rfl⟩
  | some i =>
    obtain ⟨x, hx⟩ := flat_ok sp math i (h3 i rfl)
    simp only []
    rw [hx]
    simp only []
    rw [cmd_eq "label".toList d x (by decide) (by decide)]
    exact ⟨_, rfl⟩

theorem listItemsTex_ok (sp : Char → Bool) (math : Bool) (items : List (Nat × Node)) (x : Str) (hs : ∀ e ∈ items, Sayable e.2)
    (h : listItemsTex sp math items = .ok x) : BulletsWritten sp math items x ∧ ∀ e ∈ items, Flat leaves (some math) e.2 := by
  induction items generalizing x with
  | nil =>
    simp only [listItemsTex, Except.ok.injEq] at h
    subst h
    exact ⟨.nil, by simp⟩
  | cons e items ih =>
    obtain ⟨n, c⟩ := e
    simp only [listItemsTex] at h
    obtain ⟨y, hy, h⟩ := bind_ok h
    obtain ⟨z, hz, rfl⟩ := map_ok h
    obtain ⟨w, f⟩ := written sp math c y (hs (n, c) (by simp)) hy
    obtain ⟨w', f'⟩ := ih z (fun e he => hs e (by simp [he])) hz
    refine ⟨?_, List.forall_mem_cons.2 ⟨f, f'⟩⟩
    have := BulletsWritten.cons n c items y z w w'
    unfold ListTag.texItem
    simpa using this

theorem listItemsTex_exists (sp : Char → Bool) (math : Bool) (items : List (Nat × Node))
    (h : ∀ e ∈ items, Flat leaves (some math) e.2) : ∃ x, listItemsTex sp math items = .ok x := by
  induction items with
  | nil => exact ⟨[], rfl⟩
  | cons e items ih =>
    obtain ⟨n, c⟩ := e
    obtain ⟨y, hy⟩ := flat_ok sp math c (h (n, c) (by simp))
    obtain ⟨z, hz⟩ := ih fun e he => h e (by simp [he])
    exact ⟨_, by simp only [listItemsTex]; rw [hy]; simp only [Except.bind]; rw [hz]; rfl⟩

end Verif.Composite
