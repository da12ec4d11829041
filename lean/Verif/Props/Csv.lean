import Verif.Lemmas.Csv
import Verif.Props.Data

/-!
# C95: the text of data tags
-/

namespace Verif.Csv

open Verif

/-! ### Examples -/

/-- A table with a comma, a quote, a line end and spaces in its cells. -/
example : TableText ',' [["a".toList, "b, c".toList], ["1\"2".toList, "x\ny".toList], ["".toList, " ".toList]]
    "a, \"b, c\"\n1\"2,\"x\ny\"\r\n  ,\" \"".toList := by
  refine .line ['\n'] (.cons (.plain 0 "a".toList ?_ ?_ ?_) (.one (.quoted 1 "b, c".toList))) ?_ (.inl rfl)
    (.line ['\r', '\n'] (.cons (.plain 0 "1\"2".toList ?_ ?_ ?_) (.one (.quoted 0 "x\ny".toList))) ?_ (.inr rfl)
      (.last (.cons (.plain 2 "".toList ?_ ?_ ?_) (.one (.quoted 0 " ".toList))) ?_)) <;> decide

example : readRows ',' "a, \"b, c\"\n1\"2,\"x\ny\"\r\n  ,\" \"".toList =
    some [["a".toList, "b, c".toList], ["1\"2".toList, "x\ny".toList], ["".toList, " ".toList]] := by decide +kernel

instance (c : Char) : Decidable (IsDelim c) := inferInstanceAs (Decidable (_ ∧ _))

example : IsDelim ',' ∧ IsDelim '\t' := by decide

/-! ### The theorems -/

/-- C95. Every table is read as it is written: whatever the cells are, and however each of them is written, with spaces
before it or in quotes. -/
theorem C95_rows (delim : Char) (hd : IsDelim delim) (rs : List (List Str)) (t : Str) (h : TableText delim rs t) :
    readRows delim t = some rs := rows_table hd h

/-- C95. Every table can be written, if its rows have cells. -/
theorem C95_writable (delim : Char) (rs : List (List Str)) (hr : ∀ row ∈ rs, row ≠ []) : ∃ t, TableText delim rs t := by
  have row : ∀ row : List Str, row ≠ [] → ∃ t, RowText delim row t ∧ t ≠ [] := by
    intro row
    induction row with
    | nil => intro h; exact absurd rfl h
    | cons cell cells ih =>
      intro _
      cases cells with
      | nil => exact ⟨_, .one (.quoted 0 cell), by simp⟩
      | cons c cs =>
        obtain ⟨u, hu, _⟩ := ih (by simp)
        exact ⟨_, .cons (.quoted 0 cell) hu, by simp⟩
  induction rs with
  | nil => exact ⟨[], .nil⟩
  | cons r rs ih =>
    obtain ⟨t, ht, hne⟩ := row r (hr r (List.mem_cons_self ..))
    obtain ⟨u, hu⟩ := ih fun x hx => hr x (List.mem_cons_of_mem _ hx)
    exact ⟨_, .line ['\n'] ht hne (.inl rfl) hu⟩

/-- C95. A text has one table at most. -/
theorem C95_unique (delim : Char) (hd : IsDelim delim) (rs rs' : List (List Str)) (t : Str) (h : TableText delim rs t)
    (h' : TableText delim rs' t) : rs = rs' :=
  Option.some.inj ((C95_rows delim hd rs t h).symm.trans (C95_rows delim hd rs' t h'))

/-- C95. Texts without carriage returns can always be read. -/
theorem C95_total (delim : Char) (t : Str) (h : ∀ c ∈ t, c ≠ '\r') : ∃ rs, readRows delim t = some rs :=
  rows_total t Reader.init true (by nofun) h

/-- C95. A tag has the data of the table it is written with, or of the first file that it names. -/
theorem C95_tag (c : AddFile.Search) (read : Paths.Path → Option Str) (noheader : Bool) (s t : Str) (rs : List (List Str))
    (hs : (Paths.findFiles c.sp c.brk c.isFile s c.paths = .ok [] ∧ t = s) ∨
      ∃ p ps, Paths.findFiles c.sp c.brk c.isFile s c.paths = .ok (p :: ps) ∧ read p.full = some t)
    (h : TableText ',' rs t) :
    (∀ d, loadTag c read noheader s = .ok d ↔ Data.load noheader rs = .ok d) := by
  have hst : stream c read s = .ok t := by
    rcases hs with ⟨e, rfl⟩ | ⟨p, ps, e, hr⟩
    · simp only [stream, e]
    · simp only [stream, e, hr]
  intro d
  simp only [loadTag, hst, C95_rows ',' (by decide) rs t h]
  cases Data.load noheader rs with
  | error e => exact ⟨nofun, nofun⟩
  | ok d' => simp

/-- C95. With names that differ and rows that are as long as the header, the columns of the tag have the names of the
header and the cells of the rows. -/
theorem C95_columns (c : AddFile.Search) (read : Paths.Path → Option Str) (first : List Str) (rest : List (List Str)) (s : Str)
    (hno : Paths.findFiles c.sp c.brk c.isFile s c.paths = .ok []) (h : TableText ',' (first :: rest) s)
    (hf : first ≠ []) (hr : rest ≠ []) (hn : first.Nodup) (hl : ∀ r ∈ rest, r.length = first.length) :
    ∃ d, loadTag c read false s = .ok d ∧ Data.headers d = first.map Data.Key.name ∧ Data.rowsTranspose d = rest := by
  obtain ⟨d, e1, e2, e3, _⟩ := Data.C42_header_rectangular first rest hf hr hn hl
  exact ⟨d, (C95_tag c read false s s (first :: rest) (.inl ⟨hno, rfl⟩) h d).mpr e1, e2, e3⟩

/-! ### What is not so -/

/-- Finding: a text that starts with a line end gives no data at all: the first row is empty. -/
theorem C95_blank_start (noheader : Bool) (s : Str) (rs : List (List Str)) (h : readRows ',' ('\n' :: s) = some rs) :
    Data.load noheader rs = .ok [] := by
  have : readRows ',' ('\n' :: s) = (readRows ',' s).map ([] :: ·) := rfl
  rw [this] at h
  cases hr : readRows ',' s with
  | none => rw [hr] at h; cases h
  | some r =>
    rw [hr] at h
    cases h
    cases noheader <;> rfl

/-- Finding: this is so for the example of the documentation (`docs/language/tags/data.rst`), which has the data on lines of their own. -/
theorem C95_documented_refuted :
    ∃ rs, readRows ',' "\n              First Name, Last Name\n              John, Smith\n              Betty, Sue\n            ".toList = some rs ∧
      rs = [[], ["First Name".toList, "Last Name".toList], ["John".toList, "Smith".toList], ["Betty".toList, "Sue".toList], [[]]] ∧
      Data.load false rs = .ok [] :=
  ⟨_, by decide +kernel, rfl, rfl⟩

/-- Finding: the tag `tsv` reads commas, not tabs. -/
theorem C95_tabs_refuted : (readRows ',' "a\tb\n1\t2\n".toList) = some [["a\tb".toList], ["1\t2".toList]] ∧
    readRows '\t' "a\tb\n1\t2\n".toList = some [["a".toList, "b".toList], ["1".toList, "2".toList]] := by
  decide +kernel

/-- Finding: with lines that end with a carriage return only, the text cannot be read. -/
theorem C95_carriage_return : readRows ',' "a,b\r1,2\r".toList = none := by decide +kernel

end Verif.Csv
