import Verif.Model.Data
import Verif.Model.AddFile

/-!
# Model of the text of data tags

Models `load_io_stream` of `/repo/src/disseminate/paths/utils.py`, `DelimData.load` of `/repo/src/disseminate/tags/data.py` and the part of Python's
`csv.reader` that it uses: the state machine of the module `_csv` with the dialect `excel`, a delimiter and
`skipinitialspace`. Not modelled are the limit of 131072 characters for a cell and, in versions of Python before 3.11, the
exception for null characters.
-/

namespace Verif.Csv

open Verif

/-- The states of a reader. There is no escape character. -/
inductive St
  | startRecord | startField | inField | inQuoted | quoteInQuoted | eatCrnl
deriving Repr, DecidableEq

/-- A reader within a record. -/
structure Reader where
  st : St
  field : Str
  fields : List Str
deriving Repr, DecidableEq

def Reader.init : Reader := ⟨.startRecord, [], []⟩

/-- The field is put to the others. -/
def Reader.save (r : Reader) (st : St) : Reader := ⟨st, [], r.fields ++ [r.field]⟩

def Reader.add (r : Reader) (c : Char) (st : St) : Reader := ⟨st, r.field ++ [c], r.fields⟩

/-- The start of a field: `none` is the end of a line. -/
def startField (delim : Char) (r : Reader) : Option Char → Reader
  | none => r.save .startRecord
  | some c =>
    if c = '\n' ∨ c = '\r' then r.save .eatCrnl
    else if c = '"' then { r with st := .inQuoted }
    else if c = ' ' then { r with st := .startField }
    else if c = delim then r.save .startField
    else r.add c .inField

/-- One character of `csv.reader(stream, delimiter=delimiter, skipinitialspace=self.skipinitialspace)`
(`tags/data.py:155-156`). `none` as the result is the error for a newline character in an unquoted field. -/
def step (delim : Char) (r : Reader) (c : Option Char) : Option Reader :=
  match r.st with
  | .startRecord =>
    match c with
    | none => some r
    | some c => if c = '\n' ∨ c = '\r' then some { r with st := .eatCrnl } else some (startField delim r (some c))
  | .startField => some (startField delim r c)
  | .inField =>
    match c with
    | none => some (r.save .startRecord)
    | some c =>
      if c = '\n' ∨ c = '\r' then some (r.save .eatCrnl)
      else if c = delim then some (r.save .startField)
      else some (r.add c .inField)
  | .inQuoted =>
    match c with
    | none => some r
    | some c => if c = '"' then some { r with st := .quoteInQuoted } else some (r.add c .inQuoted)
  | .quoteInQuoted =>
    match c with
    | none => some (r.save .startRecord)
    | some c =>
      if c = '"' then some (r.add c .inQuoted)
      else if c = delim then some (r.save .startField)
      else if c = '\n' ∨ c = '\r' then some (r.save .eatCrnl)
      else some (r.add c .inField)
  | .eatCrnl =>
    match c with
    | none => some { r with st := .startRecord }
    | some c => if c = '\n' ∨ c = '\r' then some r else none

/-- The rows of `csv.reader` for the text of a stream, from the state of a reader; `fresh` at the start of a line. The lines of a stream end
after each `\n`; after each line there is an end of line, and a record that is at its end is given. At the end of the
stream a record in quotes is given too. -/
def rows (delim : Char) : Reader → (fresh : Bool) → Str → Option (List (List Str))
  | r, fresh, [] =>
    if fresh then
      if r.field ≠ [] ∨ r.st = .inQuoted then some [r.fields ++ [r.field]] else some []
    else
      match step delim r none with
      | none => none
      | some r =>
        if r.st = .startRecord then some [r.fields]
        else if r.field ≠ [] ∨ r.st = .inQuoted then some [r.fields ++ [r.field]] else some []
  | r, _, c :: s =>
    match step delim r (some c) with
    | none => none
    | some r =>
      if c = '\n' then
        match step delim r none with
        | none => none
        | some r =>
          if r.st = .startRecord then (rows delim Reader.init true s).map (r.fields :: ·)
          else rows delim r true s
      else rows delim r false s

/-- `[row for row in csv_reader]` with the first one (`tags/data.py:155-158`). -/
def readRows (delim : Char) (text : Str) : Option (List (List Str)) := rows delim Reader.init true text

/-- The exceptions. -/
inductive Err
  | path (e : Paths.PathError)
  | notFound
  | csv
  | data (e : Data.Err)
deriving Repr, DecidableEq

/-- `load_io_stream` (`paths/utils.py:178-220`) for the text of a tag; `read` is the text of a file. Only the first of the files that are found is read. -/
def stream (c : AddFile.Search) (read : Paths.Path → Option Str) (s : Str) : Except Err Str :=
  match Paths.findFiles c.sp c.brk c.isFile s c.paths with
  | .error e => .error (.path e)
  | .ok [] => .ok s
  | .ok (p :: _) =>
    match read p.full with
    | none => .error .notFound
    | some t => .ok t

/-- `DelimData.load` (`tags/data.py:145-179`) for the text of a tag. The tag factory gives no delimiter, so that it is a
comma (`tags/data.py:141`). -/
def loadTag (c : AddFile.Search) (read : Paths.Path → Option Str) (noheader : Bool) (s : Str) :
    Except Err (Dict Data.Key (List Str)) :=
  match stream c read s with
  | .error e => .error e
  | .ok t =>
    match readRows ',' t with
    | none => .error .csv
    | some rs =>
      match Data.load noheader rs with
      | .error e => .error (.data e)
      | .ok d => .ok d

end Verif.Csv
