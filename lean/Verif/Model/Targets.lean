import Verif.Model.Paths
import Verif.Model.Lists

/-!
# Model of the targets of documents

Models `targets`, `includes`, `target_filepath` and `target_filepaths` of
`/repo/src/disseminate/document/document_context.py`, `add_target_builders` and `find_builder` of
`/repo/src/disseminate/builders/target_builders/receivers.py`, and the constructors of the target builders in
`/repo/src/disseminate/builders/target_builders` as far as the builders and output files of documents go.

Simplifications: a document is its source path and its set of targets; the subbuilders of a target builder (rendering, copying,
conversion) are left out, except for those that are target builders themselves; what the tables are after an exception is
left out. A set is a list without repetition, in the order in which Python iterates over it.
-/

namespace Verif.Targets

open Verif Verif.Paths Verif.Utils

/-! ### Entries of the context -/

/-- An entry `target` or `targets` of a context: text, or a list of texts. -/
inductive Entry
  | text (s : Str)
  | list (l : List Str)
deriving Repr, DecidableEq

/-- `t if t.startswith('.') else '.' + t`. -/
def dot (t : Str) : Str := if t.head? = some '.' then t else '.' :: t

/-- `DocumentContext.targets` (`document_context.py:202-238`), for the entries `target` and `targets`. -/
def targets (sp : Char → Bool) (target targets : Option Entry) : List Str :=
  let entry := match target with
    | some e => e
    | none => targets.getD (.text [])
  let l := match entry with
    | .text s => strToList sp s
    | .list l => l
  if "none".toList ∈ l then [] else Lists.uniq id ((l.filter (· ≠ [])).map dot)

/-- An entry `include` or `includes`: text, or something else. -/
inductive Include
  | text (s : Str)
  | other
deriving Repr, DecidableEq

/-- The paths of the lines (`document_context.py:338-340`). -/
def includePaths (src : SourcePath) : List Str → Except PathError (List SourcePath)
  | [] => .ok []
  | p :: ps =>
    match mkSource (toStr src.root) (toStr (div (parent src.sub) (parse p))) with
    | .error e => .error e
    | .ok s =>
      match includePaths src ps with
      | .error e => .error e
      | .ok ss => .ok (s :: ss)

/-- `DocumentContext.includes` (`document_context.py:304-341`), for the entries `include` and `includes`. -/
def includes (sp : Char → Bool) (src : SourcePath) (include' includes : Option Include) : Except PathError (List SourcePath) :=
  let entry := match include' with
    | some e => some e
    | none => includes
  match entry with
  | some (.text s) =>
    let lines := (split ['\n'] s).filter fun l => ¬ (l ≠ [] ∧ l.all sp = true) ∧ l ≠ []
    includePaths src (lines.map (strip sp))
  | _ => .ok []

/-! ### Builders -/

/-- A document: its source path and its targets. -/
structure Doc where
  src : SourcePath
  targets : List Str
deriving Repr, DecidableEq

/-- A target builder: its `outfilepath_ext`, `use_cache`, and its `outfilepath`. -/
structure Builder where
  ext : Str
  cache : Bool
  out : TargetPath
deriving Repr, DecidableEq

/-- The entry `builders` of a context. -/
abbrev Builders := Dict Str Builder

/-- The entries of all documents, by their source paths. -/
abbrev Table := Dict SourcePath Builders

/-- Whether there is a builder from `.tex` to `.pdf`, and one from `.xhtml` to `.epub`. -/
structure Tools where
  pdf : Bool
  epub : Bool

/-- Exceptions: of paths, and `BuildError`. -/
inductive Err
  | path (e : PathError)
  | build
deriving Repr, DecidableEq

/-- The extensions of target builders (`target_builders/*.py`); their only requirement is a priority, so they are all active. -/
def known : List Str := [".html".toList, ".xhtml".toList, ".tex".toList, ".txt".toList, ".pdf".toList, ".epub".toList]

/-- `TargetBuilder.__init__` (`target_builder.py:58-126`) for a builder without given parameters and output. -/
def make (env : Env) (d : Doc) (ext : Str) : Except Err Builder :=
  let cache := if ext ∈ d.targets then false else true
  match generateOut env [.other, .path (.source d.src)] (some ext) none (some ext) cache false with
  | .error e => .error (.path e)
  | .ok none => .error (.path .type)
  | .ok (some out) => .ok ⟨ext, cache, out⟩

/-- Find a target builder or create it (`pdf_builder.py:27-38`, `epub_builder.py:44-53`). -/
def ensure (env : Env) (d : Doc) (ext : Str) (bs : Builders) : Except Err Builders :=
  if bs.has ext then .ok bs
  else match make env d ext with
    | .error e => .error e
    | .ok b => .ok (bs.set ext b)

/-- The builders of a document. -/
def buildersOf (t : Table) (d : Doc) : Builders := (t.get? d.src).getD []

/-- `PdfBuilder.__init__` (`pdf_builder.py:22-61`): there is a builder for `.tex`, then one from `.tex` to `.pdf` is looked for. -/
def addPdf (tools : Tools) (env : Env) (d : Doc) (t : Table) : Except Err Table :=
  match ensure env d ".tex".toList (buildersOf t d) with
  | .error e => .error e
  | .ok bs =>
    if tools.pdf then
      match make env d ".pdf".toList with
      | .error e => .error e
      | .ok b => .ok (t.set d.src (bs.set ".pdf".toList b))
    else .error .build

/-- The builders for `.xhtml` of all documents (`epub_builder.py:33-54`). -/
def ensureAll (env : Env) (ext : Str) : List Doc → Table → Except Err Table
  | [], t => .ok t
  | d :: ds, t =>
    match ensure env d ext (buildersOf t d) with
    | .error e => .error e
    | .ok bs => ensureAll env ext ds (t.set d.src bs)

/-- `EpubBuilder.__init__` (`epub_builder.py:27-31`, `:131-167`). -/
def addEpub (tools : Tools) (env : Env) (docs : List Doc) (d : Doc) (t : Table) : Except Err Table :=
  match make env d ".epub".toList with
  | .error e => .error e
  | .ok b =>
    match ensureAll env ".xhtml".toList docs (t.set d.src ((buildersOf t d).set ".epub".toList b)) with
    | .error e => .error e
    | .ok t => if tools.epub then .ok t else .error .build

/-- One target of a document (`target_builders/receivers.py:73-84`); `only_root` is set for `.epub` only. -/
def addTarget (tools : Tools) (env : Env) (root : Doc) (docs : List Doc) (d : Doc) (ext : Str) (t : Table) : Except Err Table :=
  let ext := dot ext
  if (buildersOf t d).has ext then .ok t
  else if ext ∈ known then
    if ext = ".epub".toList then (if d = root then addEpub tools env docs d t else .ok t)
    else if ext = ".pdf".toList then addPdf tools env d t
    else match ensure env d ext (buildersOf t d) with
      | .error e => .error e
      | .ok bs => .ok (t.set d.src bs)
  else .error .build

/-- All targets of a document (`target_builders/receivers.py:72-84`). -/
def addTargets (tools : Tools) (env : Env) (root : Doc) (docs : List Doc) (d : Doc) : List Str → Table → Except Err Table
  | [], t => .ok t
  | e :: es, t =>
    match addTarget tools env root docs d e t with
    | .error e => .error e
    | .ok t => addTargets tools env root docs d es t

/-- All documents (`target_builders/receivers.py:67-84`). -/
def addDocs (tools : Tools) (env : Env) (root : Doc) (docs : List Doc) : List Doc → Table → Except Err Table
  | [], t => .ok t
  | d :: ds, t =>
    match addTargets tools env root docs d d.targets t with
    | .error e => .error e
    | .ok t => addDocs tools env root docs ds t

/-- `add_target_builders` (`target_builders/receivers.py:55-84`): `root` is the root document, which is the first of the documents, `subs` are the
others. The tables before are cleared. -/
def addTargetBuilders (tools : Tools) (env : Env) (root : Doc) (subs : List Doc) : Except Err Table :=
  addDocs tools env root (root :: subs) (root :: subs) []

/-- `target_filepath` (`document_context.py:240-275`) with `find_builder` (`target_builders/receivers.py:87-115`); `none` for `TargetNotFound`. -/
def targetFilepath (bs : Builders) (target : Str) : Option TargetPath := (bs.get? (dot target)).map (·.out)

/-- `target_filepaths` (`document_context.py:277-302`). -/
def targetFilepaths (bs : Builders) : Dict Str TargetPath :=
  Dict.update [] (bs.map fun kv => (suffix kv.2.out.full, kv.2.out))

end Verif.Targets
