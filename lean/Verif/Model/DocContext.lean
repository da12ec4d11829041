import Verif.Spec.Context

/-!
# Model of document contexts

Models `DocumentContext.__init__` and `reset` of
`/repo/src/disseminate/document/document_context.py`, and what the loading of a document does to
its context, for a whole project of documents.

Contexts are dicts by value: the merging of entries is `fupdate` and `freset`, which C06 to C08 prove to
be what `match_update` and `BaseContext.reset` do on the heap. Documents, managers, environments and
paths are known by a number, and have the types below.

Simplifications:
* mutable values nested inside others are not shared (see C07);
* a header comes as the texts it gives, and the body as the text without the header (see C09, C10 and
  C53);
* two paths are the same number if Python finds them equal.
-/

namespace Verif.DocContext

open Verif Verif.Context Verif.Context.Spec

/-- A weak reference to a document. -/
def docRef (i : Nat) : Atom := .other 0 i
/-- A `SourcePath`. -/
def pathVal (p : Nat) : Atom := .other 1 p
/-- A `TargetPath`. -/
def targetVal (p : Nat) : Atom := .other 2 p
/-- A build environment. -/
def envVal (e : Nat) : Atom := .other 3 e
/-- The label manager made for the context of document `i`. -/
def managerVal (i : Nat) : Atom := .other 4 i

/-- The class attributes of `DocumentContext` (`document_context.py:48-114`). -/
def cls : Cls where
  replace := ["targets".toList, "inactive_tags".toList]
  exclude := ["document".toList, "label_manager".toList, "environment".toList, "paths".toList]
  doNotInherit := ["document".toList, "include".toList, "includes".toList, "short".toList, "doc_id".toList,
    "mtime".toList, "paths".toList, "builders".toList, "body".toList]

/-- A project: the conversions, `settings.default_context`, the build environment with its project and target
roots, and for a source path its directory and the text of its path in the project. -/
structure World where
  P : Py
  defaults : FCtx
  env : Nat
  root : Nat
  target : Nat
  dir : Nat → Nat
  docId : Nat → Str

/-- The initial values of the context of a document (`document.py:86-90`, `context.py:116-118`). -/
def initial (W : World) : FCtx :=
  [("project_root".toList, .atom (pathVal W.root)), ("target_root".toList, .atom (targetVal W.target)),
   ("environment".toList, .atom (envVal W.env))]

/-- `self.get(k, None) is None`. -/
def isNone (F : FCtx) (k : Str) : Bool :=
  match F.get? k with
  | none => true
  | some (.atom .none) => true
  | some _ => false

/-- The document id (`document_context.py:136-139`). Simplification: `str` of an entry that is no text is
the text of the document's own id; no entry is there at this point. -/
def setDocId (W : World) (src : Nat) (F : FCtx) : FCtx :=
  if isNone F "doc_id".toList then F.set "doc_id".toList (.atom (.str (W.docId src)))
  else match F.get? "doc_id".toList with
    | some (.atom (.str s)) => F.set "doc_id".toList (.atom (.str s))
    | _ => F.set "doc_id".toList (.atom (.str (W.docId src)))

/-- The modification time, if the file exists (`document_context.py:142-143`). -/
def setMtime (mtime : Option Int) (F : FCtx) : FCtx :=
  match mtime with
  | none => F
  | some t => F.set "mtime".toList (.atom (.float t))

/-- The root document (`document_context.py:146-150`). -/
def setRoot (i : Nat) (F : FCtx) : FCtx :=
  if isNone F "root_document".toList then
    (F.set "root_document".toList (.atom (docRef i))).set "is_root_document".toList (.atom (.bool true))
  else F.set "is_root_document".toList (.atom (.bool false))

/-- The label manager (`document_context.py:153-154`). -/
def setManager (i : Nat) (F : FCtx) : FCtx :=
  if isNone F "label_manager".toList then F.set "label_manager".toList (.atom (managerVal i)) else F

/-- The level (`document_context.py:158`). The addition raises a TypeError for entries other than numbers.
Simplification: also for truth values and floats. -/
def setLevel (F : FCtx) : Except Err FCtx :=
  match F.get? "level".toList with
  | none => .ok (F.set "level".toList (.atom (.int (0 + 1))))
  | some (.atom (.int n)) => .ok (F.set "level".toList (.atom (.int (n + 1))))
  | some _ => .error .typeError

/-- The paths (`document_context.py:161-172`): the list is cleared, then the directory of the source and
the `project_root` entry are appended unless they are in it. An entry without `clear` raises, and so does
a missing `project_root`. -/
def setPaths (W : World) (src : Nat) (F : FCtx) : Except Err FCtx :=
  match F.get? "project_root".toList, F.get? "paths".toList with
  | some (.atom r), none | some (.atom r), some (.list _) =>
    let paths : List Value := [.atom (pathVal (W.dir src))]
    let paths := if .atom r ∈ paths then paths else paths ++ [.atom r]
    .ok (F.set "paths".toList (.list paths))
  | _, _ => .error .attributeError

/-- `DocumentContext.reset` (`document_context.py:125-172`) for document `i` with the source `src`; `mtime` is
the modification time of the file, if it exists. -/
def docReset (W : World) (i src : Nat) (mtime : Option Int) (F : FCtx) (parent : Option FCtx) : Except Err FCtx := do
  let F ← freset W.P cls F parent (initial W)
  let F := F.set "src_filepath".toList (.atom (pathVal src))
  let F := setDocId W src F
  let F := setMtime mtime F
  let F := setRoot i F
  let F := setManager i F
  let F ← setLevel F
  setPaths W src F

/-- A document: its source, the document whose context it inherits from, and its context. -/
structure Doc where
  src : Nat
  parent : Option Nat
  ctx : FCtx

/-- The documents that were created, and those that nothing refers to any more. -/
structure State where
  docs : List Doc
  gone : List Nat

/-- `self.parent_context` (`context.py:161-171`): the default context for a root document
(`document_context.py:119-120`), otherwise what the weak reference gives. -/
def parentCtx (W : World) (s : State) : Option Nat → Option FCtx
  | none => some W.defaults
  | some p => if p ∈ s.gone then none else (s.docs[p]?).map (·.ctx)

/-- What happens in a project. -/
inductive Op where
  /-- A document is created, as a root document or as a sub-document. -/
  | create (parent : Option Nat) (src : Nat) (mtime : Option Int)
  /-- A document is loaded: its body, the paths of its template, the texts of the template's context files and
  of its header. -/
  | load (i : Nat) (mtime : Option Int) (body : Str) (templatePaths : List Value) (template header : Dict Str Str)
  /-- An entry is set, by a receiver or a tag. -/
  | set (i : Nat) (k : Str) (v : FVal)
  /-- The last reference to a document goes away. -/
  | drop (i : Nat)

/-- A dict of texts as changes. -/
def texts (d : Dict Str Str) : FCtx := d.map fun kv => (kv.1, .atom (.str kv.2))

/-- `paths[0:0] = template_paths` (`document/receivers/process_headers.py:68-69`). -/
def prependPaths (new : List Value) (F : FCtx) : Except Err FCtx :=
  match F.get? "paths".toList with
  | some (.list l) => .ok (F.set "paths".toList (.list (new ++ l)))
  | _ => .error .attributeError

/-- The receivers of `document_onload` that change the context (`document/receivers/reset.py:7-15`,
`document/receivers/load.py:8-19`, `document/receivers/process_headers.py:67-75`). -/
def loadCtx (W : World) (i src : Nat) (mtime : Option Int) (body : Str) (templatePaths : List Value)
    (template header : Dict Str Str) (F : FCtx) (parent : Option FCtx) : Except Err FCtx := do
  let F ← docReset W i src mtime F parent
  let F := F.set "body".toList (.atom (.str body))
  let F ← prependPaths templatePaths F
  let F ← fupdate W.P cls.replace true F (texts template) (texts template).keys
  fupdate W.P cls.replace true F (texts header) (texts header).keys

/-- The new context of a document (`document_context.py:116-123`). -/
def newCtx (W : World) (s : State) (parent : Option Nat) (src : Nat) (mtime : Option Int) : Except Err FCtx :=
  docReset W s.docs.length src mtime [("document".toList, .atom (docRef s.docs.length))] (parentCtx W s parent)

/-- One event. Events of documents that do not exist do nothing. -/
def step (W : World) (s : State) : Op → Except Err State
  | .create parent src mtime => do
    let F ← newCtx W s parent src mtime
    .ok { s with docs := s.docs ++ [⟨src, parent, F⟩] }
  | .load i mtime body tp t h => match s.docs[i]? with
    | none => .ok s
    | some d => do
      let F ← loadCtx W i d.src mtime body tp t h d.ctx (parentCtx W s d.parent)
      .ok { s with docs := s.docs.set i { d with ctx := F } }
  | .set i k v => match s.docs[i]? with
    | none => .ok s
    | some d => .ok { s with docs := s.docs.set i { d with ctx := d.ctx.set k v } }
  | .drop i => .ok { s with gone := i :: s.gone }

end Verif.DocContext
