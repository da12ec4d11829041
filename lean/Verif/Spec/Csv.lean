import Verif.Model.Csv

/-!
# Specification of delimited texts
-/

namespace Verif.Csv

open Verif

/-- Quotes are written twice. -/
def doubled (cell : Str) : Str := cell.flatMap fun c => if c = '"' then ['"', '"'] else [c]

/-- How a cell can be written, with spaces before it: as it is, if it has no delimiters and line ends and does not start with a space or quote, or in quotes. -/
inductive CellText (delim : Char) : Str → Str → Prop
  | plain (n : Nat) (cell : Str) : (∀ c ∈ cell, c ≠ delim ∧ c ≠ '\n' ∧ c ≠ '\r') → cell.head? ≠ some '"' → cell.head? ≠ some ' ' →
      CellText delim cell (List.replicate n ' ' ++ cell)
  | quoted (n : Nat) (cell : Str) : CellText delim cell (List.replicate n ' ' ++ '"' :: (doubled cell ++ ['"']))

/-- The cells of a row are written with delimiters between them. -/
inductive RowText (delim : Char) : List Str → Str → Prop
  | one {cell t : Str} : CellText delim cell t → RowText delim [cell] t
  | cons {cell t : Str} {cells : List Str} {u : Str} : CellText delim cell t → RowText delim cells u →
      RowText delim (cell :: cells) (t ++ delim :: u)

/-- The rows of a table are written in lines that are not empty. The last line may have no end. -/
inductive TableText (delim : Char) : List (List Str) → Str → Prop
  | nil : TableText delim [] []
  | last {row : List Str} {t : Str} : RowText delim row t → t ≠ [] → TableText delim [row] t
  | line {row : List Str} {t : Str} {rows : List (List Str)} {u : Str} (eol : Str) : RowText delim row t → t ≠ [] →
      eol = ['\n'] ∨ eol = ['\r', '\n'] → TableText delim rows u → TableText delim (row :: rows) (t ++ (eol ++ u))

/-- A character that can be a delimiter. -/
def IsDelim (c : Char) : Prop := c ≠ '"' ∧ c ≠ ' ' ∧ c ≠ '\n' ∧ c ≠ '\r'

end Verif.Csv
