import Verif.Model.Builder
import Verif.Model.Lists

/-!
# Model of `builders/copy.py` and `builders/save_temp.py`

Simplifications: as in `Model/Decider`, a path is an opaque name, files have contents, and no two names are links to one file. The
parameters are those a builder has after it was made (with the dependencies found by scanners); `Model/Scanner` has these. The
output path is given, and its directory exists. `enc` encodes texts (`str.encode()` and `write_text`).
-/

namespace Verif.CopyFile

open Verif Verif.Decider

/-- A parameter of a builder (`builders/builder.py:51-52`): a path, a string, or something else with its bytes. -/
inductive Param
  | path (p : Str)
  | text (s : Str)
  | other (b : Bytes)
deriving Repr, DecidableEq

/-- A parameter as an input of a decision (`deciders/utils_hash.py:33-45`). -/
def Param.item (enc : Str → Bytes) : Param → Item
  | .path p => .path p
  | .text s => .other (enc s)
  | .other b => .other b

/-- `Copy.__init__` (`builders/copy.py:21-39`): strings are taken as paths. -/
def Param.asPath : Param → Param
  | .text s => .path s
  | p => p

/-- `infilepaths` (`builders/builder.py:373-376`). -/
def infilepaths (ps : List Param) : List Str := ps.filterMap fun | .path p => some p | _ => none

/-- `action` of `Copy` (`builders/copy.py:14`). -/
def copyAction : Str := "copy".toList

/-- `action` of `SaveTempFile` (`builders/save_temp.py:27`). -/
def saveAction : Str := "save".toList

/-- The inputs of the decision (`builders/builder.py:282-284`). -/
def inputs (enc : Str → Bytes) (action : Str) (ps : List Param) : List Item := ps.map (Param.item enc) ++ [.other (enc action)]

/-- The files and the database of the decider. -/
structure World where
  fs : FS
  db : Dict Bytes Bytes

/-- The exceptions: no parameters, a parameter that is no path, `BuildError`, and a failed assertion of the decider. -/
inductive Err
  | indexError | typeError | buildError | assertion
deriving Repr, DecidableEq

/-- A file is written (`copyfile` in `builders/copy.py:63`, `write_text` in `builders/save_temp.py:56`). -/
def write (fs : FS) (out : Str) (b : Bytes) : FS := fun p => if p = out then some b else fs p

/-- The parameters of a `Copy` made with `ps` (`builders/copy.py:26-39`, `builders/builder.py:289-297`). -/
def copyParameters (ps : List Param) : List Param := Lists.uniq id (ps.map Param.asPath)

/-- `Copy.status` (`builders/copy.py:41-52`). -/
def copyStatus (c : Cfg) (enc : Str → Bytes) (w : World) (ps : List Param) (out : Str) : Except Err Builder.Status :=
  match c.buildNeeded w.fs w.db (inputs enc copyAction (copyParameters ps)) (.path out) false with
  | none => .error .assertion
  | some (needed, _) =>
    if !needed || decide ((infilepaths (copyParameters ps)).head? = some out) then .ok .done
    else if !((infilepaths (copyParameters ps)).all fun p => (w.fs p).isSome) then .ok .missingParameters
    else .ok .ready

/-- `self.build_needed(reset=True)` (`builders/copy.py:69`, `builders/save_temp.py:58`). -/
def record (c : Cfg) (enc : Str → Bytes) (action : Str) (w : World) (ps : List Param) (out : Str) : World :=
  match c.buildNeeded w.fs w.db (inputs enc action ps) (.path out) true with
  | none => w
  | some (_, db) => { w with db := db }

/-- `Copy.build` (`builders/copy.py:54-70`): the status it returns or the exception, and the files and database afterwards. A copy
to the same path raises `SameFileError`, which is caught. -/
def copyBuild (c : Cfg) (enc : Str → Bytes) (w : World) (ps : List Param) (out : Str) : Except Err Builder.Status × World :=
  match copyStatus c enc w ps out with
  | .error e => (.error e, w)
  | .ok .ready =>
    match copyParameters ps with
    | [] => (.error .indexError, w)
    | .path p :: _ =>
      let fs := match w.fs p with
        | some b => if p = out then w.fs else write w.fs out b
        | none => w.fs -- never: the status is not ready
      let w' := record c enc copyAction { w with fs := fs } (copyParameters ps) out
      (copyStatus c enc w' ps out, w')
    | _ :: _ => (.error .typeError, w)
  | .ok st => (.ok st, w)

/-- The strings of the parameters (`builders/save_temp.py:47`). -/
def strings (ps : List Param) : List Str := ps.filterMap fun | .text s => some s | _ => none

/-- The parameters of a `SaveTempFile` (`builders/builder.py:289-297`). -/
def saveParameters (ps : List Param) : List Param := Lists.uniq id ps

/-- `SaveTempFile.build` (`builders/save_temp.py:45-59`), with `Builder.status` for a new builder without a process. -/
def saveBuild (c : Cfg) (enc : Str → Bytes) (w : World) (ps : List Param) (out : Str) : Except Err Builder.Status × World :=
  match strings (saveParameters ps) with
  | [] => (.error .buildError, w)
  | s :: _ =>
    let w' := record c enc saveAction { w with fs := write w.fs out (enc s) } (saveParameters ps) out
    match Builder.Leaf.new.statusIn c w'.fs w'.db ((saveParameters ps).map (Param.item enc)) (enc saveAction) out with
    | some (.ok st, _, _) => (.ok st, w')
    | _ => (.error .assertion, w')

/-- What happens in a project: files change in any way, files are copied, texts saved, and other builders ask and record. -/
inductive Op
  | files (fs : FS)
  | copy (ps : List Param) (out : Str)
  | save (ps : List Param) (out : Str)
  | other (inputs : List Item) (output : Item) (reset : Bool)

/-- The files and the database after one of these. -/
def step (c : Cfg) (enc : Str → Bytes) (w : World) : Op → World
  | .files fs => { w with fs := fs }
  | .copy ps out => (copyBuild c enc w ps out).2
  | .save ps out => (saveBuild c enc w ps out).2
  | .other is o reset => { w with db := ((c.buildNeeded w.fs w.db is o reset).map Prod.snd).getD w.db }

def run (c : Cfg) (enc : Str → Bytes) (w : World) (ops : List Op) : World := ops.foldl (step c enc) w

end Verif.CopyFile
