import Verif.Model.Dict

/-!
# Model of `document/document.py`

Documents live in a heap and are known by their index. Paths are a type `P`; two source paths are equal if they name the
same file. Times are natural numbers.

What is not modelled: the processing of the text (a file tells which files its text includes, or that processing it
raises), the other entries of contexts, signals other than `document_onload`, deleted documents (a document
that is no longer referred to stays in the heap), and Python's recursion limit (there is a bound `fuel`, and
theorems are for all bounds).
-/

namespace Verif.Documents

open Verif

variable {P : Type} [DecidableEq P]

/-- A source file: its modification time, whether it has at most `document_max_size` bytes, the includes of its text
(`none`: a receiver of `document_onload` raises), and the text. -/
structure File (P : Type) where
  mtime : Nat
  sizeOk : Bool
  includes : Option (List P)
  text : Str := []
deriving Repr, DecidableEq

/-- The files on the disk. -/
abbrev World (P : Type) := P → Option (File P)

/-- A document: `src_filepath`, `subdocuments`, the document of the parent context (`context.parent_context`), the
entry `mtime` of the context, `_succesfully_loaded`, whether the context has a body, `context.includes`, and the text that was
read. -/
structure Doc (P : Type) where
  path : P
  subs : Dict P Nat
  parent : Option Nat
  mtime : Option Nat
  loaded : Bool
  body : Bool
  includes : List P
  text : Str := []
deriving Repr, DecidableEq

/-- The documents. `root` is the root document, `loads` lists the documents loaded (with `document_onload`), in order. -/
structure Heap (P : Type) where
  docs : List (Doc P)
  root : Nat
  loads : List Nat
deriving Repr, DecidableEq

/-- Errors: `DocumentException` for a missing or too large file, the exception of a receiver, endless recursion. -/
inductive Err
  | missing
  | tooLarge
  | onload
  | recursion
deriving Repr, DecidableEq

/-- Change a document. -/
def modify (docs : List (Doc P)) (x : Nat) (f : Doc P → Doc P) : List (Doc P) :=
  match docs[x]? with
  | some d => docs.set x (f d)
  | none => docs

/-- The loop of `documents_dict` over subdocuments (`document.py:226-232`), given the dicts of the subdocuments. -/
def dictLoop (rec : Nat → Option (Dict P Nat)) : Dict P Nat → Dict P Nat → Option (Dict P Nat)
  | acc, [] => some acc
  | acc, (_, y) :: l =>
    match rec y with
    | some d => dictLoop rec (acc.update d) l
    | none => none

/-- `documents_dict(only_subdocuments=False, recursive=True)` (`document.py:197-236`); `none` if the recursion is deeper
than `fuel`. -/
def docsDict (docs : List (Doc P)) : Nat → Nat → Option (Dict P Nat)
  | 0, _ => none
  | fuel + 1, x =>
    match docs[x]? with
    | none => none
    | some d => dictLoop (docsDict docs fuel) [(d.path, x)] d.subs

/-- `documents_dict` of a document; documents do not nest deeper than there are documents, unless they are their own
subdocuments. -/
def documentsDict (docs : List (Doc P)) (x : Nat) : Option (Dict P Nat) := docsDict docs (docs.length + 1) x

/-- `documents_list(recursive=True)` (`document.py:275-299`). -/
def documentsList (docs : List (Doc P)) (x : Nat) : Option (List Nat) := (documentsDict docs x).map (·.map (·.2))

/-- `load_required` (`document.py:301-344`) for a file that exists. `alive` tells whether the context that a weak reference
refers to is still there. -/
def loadRequired (alive : Nat → Bool) (docs : List (Doc P)) (d : Doc P) (srcMtime : Nat) : Bool :=
  if !d.loaded then true
  else if !d.body then true
  else match d.mtime with
    | none => true
    | some last =>
      if srcMtime > last then true
      else
        match d.parent with
        | none => false
        | some p =>
          if alive p then
            match (docs[p]?).bind (·.mtime) with
            | some pm => pm > last
            | none => false
          else false

/-- `_update_mtime` (`document.py:406-432`), with `mtime` given; `fuel` bounds the depth. -/
def updateMtime : Nat → Option Nat → List (Doc P) → Nat → List (Doc P)
  | 0, _, docs, _ => docs
  | fuel + 1, m, docs, x =>
    match docs[x]? with
    | none => docs
    | some d =>
      let docs := match m, d.mtime with
        | some m, some old => if m > old then modify docs x (fun d => { d with mtime := some m }) else docs
        | _, _ => docs
      d.subs.foldl (fun docs kv => updateMtime fuel m docs kv.2) docs

/-- A new document (`document.py:66-90`): its context is reset, which sets the modification time
(`document_context.py:141-143`). -/
def newDoc (w : World P) (path : P) (parent : Option Nat) : Doc P :=
  { path, subs := [], parent, mtime := (w path).map (·.mtime), loaded := false, body := false, includes := [] }

/-- The loop of `load_subdocuments` (`document.py:479-505`) for the document `x`; `rec` is `load`. -/
def subsLoop (w : World P) (rec : Heap P → Nat → Except Err Bool × Heap P) (x : Nat) (self : P) (subsDict rootDict : Dict P Nat) :
    List P → Heap P → Except Err Bool × Heap P
  | [], h => (.ok false, h)
  | q :: qs, h =>
    if q = self then subsLoop w rec x self subsDict rootDict qs h
    else match subsDict.get? q with
      | some y =>
        match rec h y with
        | (.error e, h) => (.error e, h)
        | (.ok b, h) =>
          let has := match h.docs[y]? with
            | some d => d.subs.has self
            | none => false
          let h := if has then h else { h with docs := modify h.docs x fun d => { d with subs := d.subs.set q y } }
          match subsLoop w rec x self subsDict rootDict qs h with
          | (.error e, h) => (.error e, h)
          | (.ok b', h) => (.ok (b || b'), h)
      | none =>
        if rootDict.has q then subsLoop w rec x self subsDict rootDict qs h
        else
          let y := h.docs.length
          match rec { h with docs := h.docs ++ [newDoc w q (some x)] } y with
          | (.error e, h) => (.error e, h)
          | (.ok _, h) =>
            let h := { h with docs := modify h.docs x fun d => { d with subs := d.subs.set q y } }
            match subsLoop w rec x self subsDict rootDict qs h with
            | (.error e, h) => (.error e, h)
            | (.ok _, h) => (.ok true, h)

/-- `load_subdocuments` (`document.py:434-516`). -/
def loadSubs (w : World P) (rec : Heap P → Nat → Except Err Bool × Heap P) (h : Heap P) (x : Nat) : Except Err Bool × Heap P :=
  match h.docs[x]? with
  | none => (.error .recursion, h)
  | some d =>
    match documentsDict h.docs h.root, documentsDict h.docs x with
    | some rootDict, some subsDict =>
      let h := { h with docs := modify h.docs x fun d => { d with subs := [] } }
      match subsLoop w rec x d.path subsDict rootDict d.includes h with
      | (.error e, h) => (.error e, h)
      | (.ok b, h) =>
        let m := (h.docs[x]?).bind (·.mtime)
        (.ok b, { h with docs := updateMtime (h.docs.length + 1) m h.docs x })
    | _, _ => (.error .recursion, h)

/-- What `document_onload` does to the document (`document.py:371-391`, `document_context.py:141-143`,
`receivers/load.py`): the context is reset, with a new modification time, then the text is loaded and processed. If that
raises, the document is left as not loaded. -/
def onload (h : Heap P) (x : Nat) (f : File P) : Except Err Unit × Heap P :=
  if !f.sizeOk then (.error .tooLarge, { h with docs := modify h.docs x fun d => { d with loaded := false } })
  else match f.includes with
    | none => (.error .onload,
        { h with docs := modify h.docs x fun d => { d with loaded := false, mtime := some f.mtime, body := true, text := f.text } })
    | some incs => (.ok (),
        { h with
          docs := modify h.docs x fun d => { d with loaded := true, mtime := some f.mtime, body := true, includes := incs, text := f.text }
          loads := h.loads ++ [x] })

/-- `load` (`document.py:346-404`): whether some document was loaded. -/
def load (w : World P) (alive : Nat → Bool) : Nat → Bool → Heap P → Nat → Except Err Bool × Heap P
  | 0, _, h, _ => (.error .recursion, h)
  | fuel + 1, reload, h, x =>
    match h.docs[x]? with
    | none => (.error .recursion, h)
    | some d =>
      match w d.path with
      | none => (.error .missing, h)
      | some f =>
        if loadRequired alive h.docs d f.mtime || reload then
          match onload h x f with
          | (.error e, h) => (.error e, h)
          | (.ok (), h) =>
            match loadSubs w (load w alive fuel false) h x with
            | (.error e, h) => (.error e, h)
            | (.ok _, h) => (.ok true, h)
        else loadSubs w (load w alive fuel false) h x

/-- The creation of a root document (`document.py:66-96`). -/
def create (w : World P) (alive : Nat → Bool) (fuel : Nat) (path : P) : Except Err Bool × Heap P :=
  load w alive fuel false { docs := [newDoc w path none], root := 0, loads := [] } 0

/-- `documents_by_id` (`document.py:238-273`); `none` is `DocumentException`. `idOf` is `doc_id`. -/
def documentsById {I : Type} [DecidableEq I] (idOf : Nat → I) (d : Dict P Nat) : Option (Dict I Nat) :=
  let byId : Dict I Nat := Dict.update [] (d.map fun kv => (idOf kv.2, kv.2))
  if byId.length < d.length then none else some byId

end Verif.Documents
