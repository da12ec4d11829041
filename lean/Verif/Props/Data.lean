import Verif.Lemmas.Data

/-!
# C42: delimited data
-/

set_option linter.unusedSimpArgs false

namespace Verif.Data

open Verif Verif.Data.Spec

/-- C42: data with a header. For a table with at least one row below the header, `w` being the length of the shortest of
these rows, and different names in the header: the columns are named by the header in order, each one has the values at
its place in row order, and the rows are given back, all up to the columns that every row and the header have. -/
theorem C42_header (first : List Str) (rest : List (List Str)) (w : Nat) (hw : IsWidth rest w) (hn : first.Nodup) :
    ∃ data, load false (first :: rest) = .ok data ∧
      headers data = (first.take w).map .name ∧
      (∀ (j : Nat) (f : Str), j < w → first[j]? = some f → ∃ c, data.get? (.name f) = some c ∧ IsColumn rest j c) ∧
      (0 < min w first.length → rowsTranspose data = rest.map (List.take (min w first.length))) := by
  obtain ⟨t1, t2⟩ := transpose_spec rest w hw
  have hnd : ((named first (transpose rest)).map Prod.fst).Nodup := by
    rw [named_fst]
    exact name_nodup _ ((List.take_sublist _ _).nodup hn)
  refine ⟨named first (transpose rest), ?_, ?_, ?_, ?_⟩
  · simp only [load, Bool.false_eq_true, if_false]
    rw [update_nil _ hnd]
  · rw [headers, Dict.keys, named_fst, t1]
  · intro j f hj hf
    have hjt : j < (transpose rest).length := by omega
    have hjf : j < first.length := (List.getElem?_eq_some_iff.1 hf).1
    refine ⟨(transpose rest)[j], ?_, t2 j _ (by simp [hjt])⟩
    apply Dict.get?_of_mem _ hnd
    have key : ∀ (fs : List Str) (cs : List (List Str)) (j : Nat) (f : Str) (c : List Str), fs[j]? = some f → cs[j]? = some c →
        (Key.name f, c) ∈ named fs cs := by
      intro fs
      induction fs with
      | nil => intro cs j f c h; simp at h
      | cons a fs ih =>
        intro cs j f c h1 h2
        cases cs with
        | nil => simp at h2
        | cons d cs =>
          cases j with
          | zero => simp at h1 h2; simp [named, h1, h2]
          | succ j => simp at h1 h2; simp [named, ih cs j f c h1 h2]
    exact key first _ j f _ hf (by simp [hjt])
  · intro h0
    rw [rowsTranspose, columns, named_snd]
    have : (transpose rest).take first.length = (transpose rest).take (min w first.length) := by
      by_cases h : first.length ≤ w
      · rw [Nat.min_eq_right h]
      · rw [Nat.min_eq_left (by omega), List.take_of_length_le (by omega), List.take_of_length_le (by omega)]
    rw [this]
    exact transpose_take rest _ _ h0 (by omega) t2

/-- C42: for a rectangular table nothing is lost. -/
theorem C42_header_rectangular (first : List Str) (rest : List (List Str)) (hf : first ≠ []) (hr : rest ≠ []) (hn : first.Nodup)
    (hrect : ∀ r ∈ rest, r.length = first.length) :
    ∃ data, load false (first :: rest) = .ok data ∧ headers data = first.map .name ∧ rowsTranspose data = rest ∧
      numCols (some data) = some first.length := by
  have hw : IsWidth rest first.length := by
    refine ⟨fun r h => Nat.le_of_eq (hrect r h).symm, ?_⟩
    cases rest with
    | nil => exact absurd rfl hr
    | cons r rest => exact ⟨r, by simp, hrect r (by simp)⟩
  obtain ⟨data, h1, h2, _, h4⟩ := C42_header first rest first.length hw hn
  have h0 : 0 < first.length := List.length_pos_iff.2 hf
  refine ⟨data, h1, by simpa using h2, ?_, ?_⟩
  · rw [h4 (by simpa using h0), Nat.min_self]
    conv => rhs; rw [← List.map_id rest]
    apply List.map_congr_left
    intro r hr
    rw [id, List.take_of_length_le (Nat.le_of_eq (hrect r hr))]
  · have := congrArg List.length h2
    simpa [headers, Dict.keys, numCols] using this

/-- C42: data without a header. For a table of at least two rows, the first row is data as the others, and the columns have
the numbers from 0. -/
theorem C42_noheader (first : List Str) (rest : List (List Str)) (hr : rest ≠ []) (w : Nat) (hw : IsWidth (first :: rest) w) :
    ∃ data, load true (first :: rest) = .ok data ∧
      headers data = (List.range w).map .num ∧
      (∀ j < w, ∃ c, data.get? (.num j) = some c ∧ IsColumn (first :: rest) j c) ∧
      (0 < w → rowsTranspose data = (first :: rest).map (List.take w)) := by
  obtain ⟨v, hv⟩ := exists_width rest hr
  obtain ⟨t1, t2⟩ := transpose_spec rest v hv
  have hmin : w = min first.length v := by
    have h1 : w ≤ first.length := hw.1 first (by simp)
    obtain ⟨q, hq, hql⟩ := hv.2
    have h2 : w ≤ v := by rw [← hql]; exact hw.1 q (by simp [hq])
    obtain ⟨x, hx, hxl⟩ := hw.2
    rcases List.mem_cons.1 hx with rfl | hx
    · omega
    · have := hv.1 x hx; omega
  have hnd : ((numbered 0 first (transpose rest)).map Prod.fst).Nodup := by rw [numbered_fst]; exact num_nodup _ _
  have hcols : ∀ (j : Nat) (c : List Str), (first.zipWith List.cons (transpose rest))[j]? = some c → IsColumn (first :: rest) j c := by
    intro j c hc
    rw [List.getElem?_zipWith] at hc
    cases hf : first[j]? with
    | none => rw [hf] at hc; simp at hc
    | some f =>
      cases ht : (transpose rest)[j]? with
      | none => rw [hf, ht] at hc; simp at hc
      | some d =>
        rw [hf, ht] at hc
        simp only [Option.some.injEq] at hc
        subst hc
        obtain ⟨k1, k2⟩ := t2 j d ht
        refine ⟨by simp [k1], ?_⟩
        intro i r hr
        cases i with
        | zero =>
          simp only [List.getElem?_cons_zero, Option.some.injEq] at hr
          subst hr
          exact ⟨f, hf, by simp⟩
        | succ i =>
          rw [List.getElem?_cons_succ] at hr ⊢
          exact k2 i r hr
  refine ⟨numbered 0 first (transpose rest), ?_, ?_, ?_, ?_⟩
  · simp only [load, if_true]
    rw [update_nil _ hnd]
  · rw [headers, Dict.keys, numbered_fst, t1, hmin, List.range_eq_range']
  · intro j hj
    have hj' : j < (first.zipWith List.cons (transpose rest)).length := by rw [List.length_zipWith]; omega
    refine ⟨(first.zipWith List.cons (transpose rest))[j], ?_, hcols j _ (List.getElem?_eq_getElem hj')⟩
    apply Dict.get?_of_mem _ hnd
    have key : ∀ (fs : List Str) (cs : List (List Str)) (n j : Nat) (c : List Str), (fs.zipWith List.cons cs)[j]? = some c →
        (Key.num (n + j), c) ∈ numbered n fs cs := by
      intro fs
      induction fs with
      | nil => intro cs n j c h; simp at h
      | cons a fs ih =>
        intro cs n j c h
        cases cs with
        | nil => simp at h
        | cons d cs =>
          cases j with
          | zero => simp at h; simp [numbered, h]
          | succ j =>
            simp only [List.zipWith_cons_cons, List.getElem?_cons_succ] at h
            have := ih cs (n + 1) j c h
            have e : n + 1 + j = n + (j + 1) := by omega
            rw [e] at this
            simp [numbered, this]
    have := key first (transpose rest) 0 j _ (List.getElem?_eq_getElem hj')
    rwa [Nat.zero_add] at this
  · intro h0
    rw [rowsTranspose, columns, numbered_snd]
    exact transpose_columns (first :: rest) _ w h0 (by rw [List.length_zipWith]; omega) hcols

/-- C42: for a rectangular table nothing is lost. -/
theorem C42_noheader_rectangular (first : List Str) (rest : List (List Str)) (hf : first ≠ []) (hr : rest ≠ [])
    (hrect : ∀ r ∈ rest, r.length = first.length) :
    ∃ data, load true (first :: rest) = .ok data ∧ rowsTranspose data = first :: rest ∧ numCols (some data) = some first.length := by
  have hw : IsWidth (first :: rest) first.length := by
    refine ⟨?_, first, by simp, rfl⟩
    intro r h
    rcases List.mem_cons.1 h with rfl | h
    · exact Nat.le_refl _
    · exact Nat.le_of_eq (hrect r h).symm
  obtain ⟨data, h1, h2, _, h4⟩ := C42_noheader first rest hr _ hw
  refine ⟨data, h1, ?_, ?_⟩
  · rw [h4 (List.length_pos_iff.2 hf)]
    conv => rhs; rw [← List.map_id (first :: rest)]
    apply List.map_congr_left
    intro r hr
    rw [id, List.take_of_length_le]
    rcases List.mem_cons.1 hr with rfl | hr
    · exact Nat.le_refl _
    · exact Nat.le_of_eq (hrect r hr)
  · have := congrArg List.length h2
    simpa [headers, Dict.keys, numCols] using this

/-- A table with two rows and three columns. -/
example : load false [["a".toList, "b".toList, "c".toList], ["1".toList, "2".toList, "3".toList], ["4".toList, "5".toList, "6".toList]] =
    .ok [(.name "a".toList, ["1".toList, "4".toList]), (.name "b".toList, ["2".toList, "5".toList]), (.name "c".toList, ["3".toList, "6".toList])] := rfl

/-- Finding: a table with a header only has no columns, and with 'noheader' a table of one row is lost. -/
theorem C42_single_row (noheader : Bool) (first : List Str) : load noheader [first] = .ok [] := by
  cases noheader <;> cases first <;> rfl

/-- Finding: of two columns with the same name, the values of the first are lost. -/
theorem C42_same_names : load false [["a".toList, "a".toList], ["1".toList, "2".toList]] = .ok [(.name "a".toList, ["2".toList])] := rfl

/-- Finding: an empty source raises `StopIteration`. -/
theorem C42_empty (noheader : Bool) : load noheader [] = .error .stopIteration := rfl

/-- Finding: the number of rows cannot be asked for. -/
theorem C42_num_rows (data : Dict Key (List Str)) : numRows (some data) = .error .typeError ∧ numRows none = .ok none := ⟨rfl, rfl⟩

/-! ## In LaTeX -/

theorem replace_char (d : Char) (new s : Str) : replace [d] new s = s.flatMap fun c => if c = d then new else [c] := by
  unfold replace
  generalize hn : s.length = n
  induction n using Nat.strongRecOn generalizing s with
  | ind n ih =>
    by_cases hd : d ∈ s
    · obtain ⟨p, r, rfl, hp⟩ := List.eq_append_cons_of_mem hd
      rw [split_char d p r hp]
      have hr := ih r.length (by subst hn; simp; omega) r rfl
      have hne : split [d] r ≠ [] := split_ne_nil _ _
      have hpm : p.flatMap (fun c => if c = d then new else [c]) = p := by
        clear hn hd ih hr hne
        induction p with
        | nil => rfl
        | cons a p ihp =>
          simp only [List.mem_cons, not_or] at hp
          rw [List.flatMap_cons, ihp hp.2, if_neg (Ne.symm hp.1)]
          rfl
      rw [List.flatMap_append, List.flatMap_cons, hpm, if_pos rfl, ← hr]
      cases h : split [d] r with
      | nil => exact absurd h hne
      | cons q l => simp [join]
    · rw [split_char_none d s hd]
      clear hn ih
      induction s with
      | nil => rfl
      | cons a s ihs =>
        simp only [List.mem_cons, not_or] at hd
        have := ihs hd.2
        simp only [join] at this ⊢
        rw [List.flatMap_cons, ← this, if_neg (Ne.symm hd.1)]
        rfl

theorem read_other (c : Char) (h1 : c ≠ '\\') (h2 : c ≠ '&') (cur rest : Str) : readCells cur (c :: rest) = readCells (c :: cur) rest := by
  rw [readCells.eq_def]
  split
  · rename_i h; simp only [List.cons.injEq] at h; exact absurd h.1 h1
  · rename_i h; simp only [List.cons.injEq] at h; exact absurd h.1 h1
  · rename_i h; simp only [List.cons.injEq] at h; exact absurd h.1 h2
  · rename_i h; simp only [List.cons.injEq] at h; rw [h.1, h.2]
  · rename_i h; cases h

theorem read_cell (s : Str) (hs : '\\' ∉ s) (cur rest : Str) :
    readCells cur (cellTex s ++ rest) = readCells (s.reverse ++ cur) rest := by
  rw [cellTex]
  show readCells cur (replace ['&'] _ s ++ rest) = _
  rw [replace_char]
  induction s generalizing cur with
  | nil => rfl
  | cons c s ih =>
    simp only [List.mem_cons, not_or] at hs
    rw [List.flatMap_cons]
    by_cases hc : c = '&'
    · subst hc
      rw [if_pos rfl]
      show readCells ('&' :: cur) (List.flatMap _ s ++ rest) = _
      rw [ih hs.2]; simp
    · rw [if_neg hc]
      show readCells cur (c :: (List.flatMap _ s ++ rest)) = _
      rw [read_other c (Ne.symm hs.1) hc, ih hs.2]; simp

theorem read_row (c : Str) (cs : List Str) (hs : ∀ s ∈ c :: cs, '\\' ∉ s) (cur : Str) :
    readCells cur (rowTex (c :: cs)) = (cur.reverse ++ c ++ [' ']) :: cs.map fun c => ' ' :: (c ++ [' ']) := by
  induction cs generalizing c cur with
  | nil =>
    rw [rowTex]
    show readCells cur (cellTex c ++ _) = _
    rw [read_cell c (hs c (by simp))]
    show readCells (c.reverse ++ cur) (' ' :: '\\' :: '\\' :: ['\n']) = _
    rw [read_other ' ' (by decide) (by decide), readCells]
    simp
  | cons d cs ih =>
    have h := ih d (fun s h => hs s (by simp at h ⊢; right; exact h)) [' ']
    rw [rowTex, List.map_cons, join_cons _ _ _ (by simp), List.append_assoc, List.append_assoc, read_cell c (hs c (by simp))]
    show readCells (c.reverse ++ cur) (' ' :: '&' :: ' ' :: rowTex (d :: cs)) = _
    rw [read_other ' ' (by decide) (by decide)]
    show _ :: readCells [] (' ' :: rowTex (d :: cs)) = _
    rw [read_other ' ' (by decide) (by decide), h]
    simp

/-- C42: the cells of a line of the LaTeX table are read back as the values of the row, with spaces around them, for values
without backslashes. -/
theorem C42_tex_row_partial (row : List Str) (hr : row ≠ []) (hs : ∀ s ∈ row, '\\' ∉ s) :
    (readCells [] (rowTex row)).length = row.length ∧
    ∀ (i : Nat) (t s : Str), (readCells [] (rowTex row))[i]? = some t → row[i]? = some s → Padded t s := by
  cases row with
  | nil => exact absurd rfl hr
  | cons c cs =>
    rw [read_row c cs hs []]
    refine ⟨by simp, ?_⟩
    intro i t s ht h
    cases i with
    | zero =>
      simp only [List.getElem?_cons_zero, Option.some.injEq] at ht h
      subst ht h
      exact ⟨[], [' '], by simp, by simp, by simp⟩
    | succ i =>
      simp only [List.getElem?_cons_succ, List.getElem?_map] at ht h
      rw [h] at ht
      simp only [Option.map_some, Option.some.injEq] at ht
      subst ht
      exact ⟨[' '], [' '], by simp, by simp, by simp⟩

/-- The hypotheses are met. -/
example : readCells [] (rowTex ["R&D".toList, "5".toList]) = ["R&D ".toList, " 5 ".toList] := by decide

/-- Finding: an ampersand that is escaped already ends the line of the table. -/
theorem C42_escaped : readCells [] (rowTex ["R\\&D".toList, "5".toList]) = ["R".toList] := by decide

/-- C42: the table has a line with the header, if there is one, and then one line for each row. -/
theorem C42_tex_table (first : List Str) (rest : List (List Str)) (hf : first ≠ []) (hr : rest ≠ []) (hn : first.Nodup)
    (hrect : ∀ r ∈ rest, r.length = first.length) :
    (∃ data, load false (first :: rest) = .ok data ∧ texTable false data =
      "\\toprule\n".toList ++ rowTex first ++ "\\midrule\n".toList ++ rest.flatMap rowTex ++ "\\bottomrule".toList) ∧
    (∃ data, load true (first :: rest) = .ok data ∧ texTable true data =
      "\\toprule\n".toList ++ (first :: rest).flatMap rowTex ++ "\\bottomrule".toList) := by
  have t : ∀ data, (headers data).map showKey = first → rowsTranspose data = rest → texTable false data =
      "\\toprule\n".toList ++ rowTex first ++ "\\midrule\n".toList ++ rest.flatMap rowTex ++ "\\bottomrule".toList := by
    intro data h2 h3
    unfold texTable
    rw [h2, h3, if_neg Bool.false_ne_true]
    simp only [List.append_assoc]
  have u : ∀ data, rowsTranspose data = first :: rest → texTable true data =
      "\\toprule\n".toList ++ (first :: rest).flatMap rowTex ++ "\\bottomrule".toList := by
    intro data h3
    unfold texTable
    rw [h3, if_pos rfl, List.append_nil]
  refine ⟨?_, ?_⟩
  · have h := C42_header_rectangular first rest hf hr hn hrect
    exact h.imp fun data h => ⟨h.1, t data (by rw [h.2.1, List.map_map]; exact List.map_id first) h.2.2.1⟩
  · have h := C42_noheader_rectangular first rest hf hr hrect
    exact h.imp fun data h => ⟨h.1, u data h.2.1⟩

end Verif.Data
