import Verif.Model.Dict
import Verif.Model.Strings

/-!
# Model of delimited data and tables

Models `/repo/src/disseminate/tags/data.py` and `transpose` of `/repo/src/disseminate/utils/list.py`. The reading of
lines by Python's `csv` module is not modelled: the model starts from the rows it gives.
-/

namespace Verif.Data

open Verif

/-- The first items of all the rows and what follows them, if no row is at its end. -/
def heads {α : Type} : List (List α) → Option (List α × List (List α))
  | [] => some ([], [])
  | r :: rows =>
    match r with
    | [] => none
    | a :: t =>
      match heads rows with
      | none => none
      | some (hs, ts) => some (a :: hs, t :: ts)

/-- The loop of `zip(*lst)` (`utils/list.py:181`) for a first list and the others. -/
def zipFrom {α : Type} : List α → List (List α) → List (List α)
  | [], _ => []
  | a :: r, rows =>
    match heads rows with
    | none => []
    | some (hs, ts) => (a :: hs) :: zipFrom r ts

/-- `transpose` (`utils/list.py:169-181`). -/
def transpose {α : Type} : List (List α) → List (List α)
  | [] => []
  | r :: rows => zipFrom r rows

/-- The name of a column: a text of the header, or its number. -/
inductive Key
  | name (s : Str)
  | num (n : Nat)
deriving Repr, DecidableEq

/-- The exceptions. -/
inductive Err
  | stopIteration
  | typeError
deriving Repr, DecidableEq

/-- `enumerate(zip(first_row, rows))` (`data.py:168-172`), from the number `n`, with the first value put in front. -/
def numbered : Nat → List Str → List (List Str) → List (Key × List Str)
  | n, f :: fs, r :: rs => (.num n, f :: r) :: numbered (n + 1) fs rs
  | _, _, _ => []

/-- `zip(first_row, rows)` (`data.py:173-176`). -/
def named : List Str → List (List Str) → List (Key × List Str)
  | f :: fs, r :: rs => (.name f, r) :: named fs rs
  | _, _ => []

/-- `DelimData.load` (`data.py:145-179`), given the rows of the reader. `next(csv_reader)` raises `StopIteration` if
there is none. -/
def load (noheader : Bool) (rows : List (List Str)) : Except Err (Dict Key (List Str)) :=
  match rows with
  | [] => .error .stopIteration
  | first :: rest =>
    let cols := transpose rest
    .ok (Dict.update [] (if noheader then numbered 0 first cols else named first cols))

/-- `Data.headers` (`data.py:102-105`). -/
def headers (data : Dict Key (List Str)) : List Key := data.keys

/-- `Data.rows` (`data.py:107-110`). -/
def columns (data : Dict Key (List Str)) : List (List Str) := data.map Prod.snd

/-- `Data.rows_transpose` (`data.py:112-116`). -/
def rowsTranspose (data : Dict Key (List Str)) : List (List Str) := transpose (columns data)

/-- `Data.num_cols` (`data.py:118-121`). -/
def numCols (data : Option (Dict Key (List Str))) : Option Nat := data.map List.length

/-- `Data.num_rows` (`data.py:123-130`): `self.data.keys()[0]` raises a `TypeError`. -/
def numRows (data : Option (Dict Key (List Str))) : Except Err (Option Nat) :=
  match data with
  | none => .ok none
  | some _ => .error .typeError

/-- `str(header)` (`data.py:88`), for a name; numbers are only used without header cells. -/
def showKey : Key → Str
  | .name s => s
  | .num n => Nat.toDigits 10 n

/-- `Cell.tex_fmt` (`data.py:22-25`) and `HeaderCell.tex_fmt` (`data.py:34-37`), for a cell that is formatted as the text
itself. Simplification: cells with tags in them are not modelled. -/
def cellTex (s : Str) : Str := replace "&".toList "\\&".toList s

/-- One line of the table (`data.py:191-193,198-200`). -/
def rowTex (row : List Str) : Str := join " & ".toList (row.map cellTex) ++ " \\\\\n".toList

/-- `DelimData.tex_table` (`data.py:181-204`). `tex_cmd` gives a backslash and the name (`formats/tex.py`). -/
def texTable (noheader : Bool) (data : Dict Key (List Str)) : Str :=
  "\\toprule\n".toList ++
  (if noheader then [] else rowTex ((headers data).map showKey) ++ "\\midrule\n".toList) ++
  (rowsTranspose data).flatMap rowTex ++
  "\\bottomrule".toList

end Verif.Data
