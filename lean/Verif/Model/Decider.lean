import Verif.Model.Basic
import Verif.Model.Dict

/-!
# Model of `builders/deciders`

Simplifications: a path is an opaque name (`Str`) and the file system gives the contents of the files that exist. The
md5 function is a parameter `H`; feeding a hash object piece by piece is hashing the concatenation of the pieces, and
`hexdigest` (a one-to-one spelling of `digest`) is left out. `str(item).encode()` of an item that is no path and no
bytes object is given with the item.
-/

namespace Verif.Decider

open Verif

abbrev Bytes := List UInt8

/-- The existing files with their contents. -/
abbrev FS := Str → Option Bytes

/-- An input of a build: a `pathlib.Path`, or something else with its bytes (`deciders/utils_hash.py:34-45`). -/
inductive Item
  | path (p : Str)
  | other (b : Bytes)
deriving Repr, DecidableEq

/-- Lexicographic comparison of byte strings, as Python's `bytes.__le__`. -/
def bytesLe : Bytes → Bytes → Bool
  | [], _ => true
  | _ :: _, [] => false
  | a :: s, b :: t => if a < b then true else if b < a then false else bytesLe s t

/-- Insertion into a sorted list. -/
def insertBytes (a : Bytes) : List Bytes → List Bytes
  | [] => [a]
  | b :: l => if bytesLe a b then a :: b :: l else b :: insertBytes a l

/-- `sorted(hashes)` (`deciders/utils_hash.py:48`). -/
def sortBytes : List Bytes → List Bytes
  | [] => []
  | a :: l => insertBytes a (sortBytes l)

/-- `text.split(sep)` for a separator of one byte. -/
def splitByte (nl : UInt8) : Bytes → List Bytes
  | [] => [[]]
  | c :: t => if c = nl then [] :: splitByte nl t else
    match splitByte nl t with
    | l :: ls => (c :: l) :: ls
    | [] => [[c]]

/-- The results of `file.read(n)` up to the first empty one (`deciders/utils_hash.py:80-83`, `92-96`). -/
def readChunks (n : Nat) (s : Bytes) : List Bytes :=
  (List.range ((s.length + n - 1) / n)).map fun i => (s.drop (i * n)).take n

/-- `line_splitter` (`deciders/utils_hash.py:87-102`) on the chunks that `file.read` returns. -/
def lineSplitter (nl : UInt8) : Bytes → List Bytes → List Bytes
  | tail, [] => if tail = [] then [] else [tail]
  | tail, chunk :: chunks =>
    match splitByte nl (tail ++ chunk) with
    | [] => lineSplitter nl tail chunks -- never: `split` returns at least one piece
    | first :: lines =>
      match lines.getLast? with
      | none => lineSplitter nl first chunks
      | some last => first :: lines.dropLast ++ lineSplitter nl last chunks

/-- `b'\n'`. -/
def newline : UInt8 := 10

/-- `line.startswith(starter)` for one of the starters (`deciders/utils_hash.py:137`). -/
def skipped (starters : List Bytes) (line : Bytes) : Bool := starters.any fun s => s.isPrefixOf line

/-- What `hash_pdf` feeds to the hash object (`deciders/utils_hash.py:105-141`), for the chunks of the file. -/
def pdfFed (starters : List Bytes) (chunks : List Bytes) : Bytes :=
  ((lineSplitter newline [] chunks).filter fun l => !skipped starters l).flatten

/-- What `hash_file` feeds to the hash object (`deciders/utils_hash.py:56-84`), for the chunks of the file. -/
def fileFed (chunks : List Bytes) : Bytes := chunks.flatten

/-- The parameters of the model. -/
structure Cfg where
  /-- The hash function (`hashlib.md5`). -/
  H : Bytes → Bytes
  /-- How a file is read: `chunk_size` bytes at a time. -/
  chunks : Bytes → List Bytes
  /-- The lines of a pdf to leave out (`deciders/utils_hash.py:106`). -/
  starters : List Bytes
  /-- `path.suffix == '.pdf'`. -/
  isPdf : Str → Bool
  /-- `str(item)`, as the sort key of `sorted(inputs, key=str)`. -/
  str : Item → Nat

/-- What is hashed for an item (`deciders/utils_hash.py:33-45`); a missing file raises (`none`). -/
def Cfg.fed (c : Cfg) (fs : FS) : Item → Option Bytes
  | .path p => (fs p).map fun content =>
    if c.isPdf p then pdfFed c.starters (c.chunks content) else fileFed (c.chunks content)
  | .other b => some b

/-- `hash_items` (`deciders/utils_hash.py:8-53`) with `sort=True`. -/
def Cfg.hashItems (c : Cfg) (fs : FS) (items : List Item) : Option Bytes :=
  (items.mapM (c.fed fs)).map fun bs => c.H (sortBytes (bs.map c.H)).flatten

/-- `calculate_hash` (`deciders/md5decider.py:44-51`). -/
def Cfg.calculateHash (c : Cfg) (fs : FS) (inputs : List Item) (output : Item) : Option (Bytes × Bytes) :=
  match c.hashItems fs (sortedBy c.str inputs), c.hashItems fs [output] with
  | some i, some o => some (i, o)
  | _, _ => none

/-- A path that does not exist. -/
def missing (fs : FS) : Item → Bool
  | .path p => (fs p).isNone
  | .other _ => false

/-- `Decision.build_needed` (`deciders/decider.py:26-57`); `none` is the failed assertion on empty inputs. -/
def filesMissing (fs : FS) (inputs : List Item) (output : Item) : Option Bool :=
  if inputs = [] then none
  else if inputs.any (missing fs) then some true
  else if missing fs output then some true
  else some false

/-- `Md5Decision.build_needed` (`deciders/md5decider.py:13-42`): the answer and the database after it. The
database maps input digests to output digests. -/
def Cfg.buildNeeded (c : Cfg) (fs : FS) (db : Dict Bytes Bytes) (inputs : List Item) (output : Item) (reset : Bool) :
    Option (Bool × Dict Bytes Bytes) :=
  match filesMissing fs inputs output with
  | none => none
  | some true => some (true, db)
  | some false =>
    match c.calculateHash fs inputs output with
    | none => none
    | some (i, o) => if reset then some (false, db.set i o) else some (decide (db.get? i ≠ some o), db)

/-- What happens around a database: files change in any way, and builders ask and record. -/
inductive Event
  | files (fs : FS)
  | call (inputs : List Item) (output : Item) (reset : Bool)

/-- The files and the database after an event. A failed assertion leaves both as they are. -/
def Cfg.step (c : Cfg) (st : FS × Dict Bytes Bytes) : Event → FS × Dict Bytes Bytes
  | .files fs => (fs, st.2)
  | .call inputs output reset => (st.1, ((c.buildNeeded st.1 st.2 inputs output reset).map Prod.snd).getD st.2)

def Cfg.run (c : Cfg) (st : FS × Dict Bytes Bytes) (es : List Event) : FS × Dict Bytes Bytes := es.foldl c.step st

end Verif.Decider
