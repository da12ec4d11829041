import Verif.Model.Context
import Verif.Model.Header
import Verif.Model.Lists
import Verif.Model.Paths

/-!
# Model of the loading of headers and template entries

Models `/repo/src/disseminate/document/receivers/process_headers.py`: the header entries of a context and the `context.txt` files of
its template and the templates that one extends are loaded into the context.
-/

namespace Verif.Template

open Verif Verif.Context Verif.Header Verif.Paths

/-- What is read from the disk: which paths are directories, the text of the files, and the files `path.glob('**/template*')` finds.
Simplification: these are files, and can be read. -/
structure Disk where
  isDir : Path → Bool
  text : Path → Option Str
  templates : Path → List Path

/-- `find_template_paths` (`process_headers.py:78-106`). `bases` is `settings.module_template_paths`. -/
def findTemplatePaths (disk : Disk) (bases : List Path) (name : Path) : List Path :=
  Lists.uniq id <| bases.foldl (fun paths base =>
    let p := div base name
    if disk.isDir p ∧ p ∉ paths then p :: paths
    else if disk.isDir (parent p) ∧ parent p ∉ paths then parent p :: paths
    else paths) []

/-- A match of `extends\s*["']([^'"]+)["']` at the start of a text (`process_headers.py:109`): the group. -/
def extendsAt (sp : Char → Bool) (s : Str) : Option Str :=
  if "extends".toList.isPrefixOf s then
    match (s.drop 7).dropWhile sp with
    | q :: t =>
      if q = '"' ∨ q = '\'' then
        let name := t.takeWhile fun c => c ≠ '"' ∧ c ≠ '\''
        if name ≠ [] ∧ t.drop name.length ≠ [] then some name else none
      else none
    | [] => none
  else none

/-- `_re_jinja2_extends.search(s)` (`process_headers.py:109`, `process_headers.py:130-131`). -/
def extendsName (sp : Char → Bool) : Str → Option Str
  | [] => none
  | c :: t =>
    match extendsAt sp (c :: t) with
    | some n => some n
    | none => extendsName sp t

/-- `find_jinja2_parent_templates` (`process_headers.py:112-150`). -/
def findParents (sp : Char → Bool) (disk : Disk) (bases : List Path) (path : Path) : List Path :=
  Lists.uniq id <| ((disk.templates path).filterMap fun f => (disk.text f).bind (extendsName sp)).flatMap fun n =>
    let name := parent (parent (parse n))
    if toStr name ≠ ['.'] then findTemplatePaths disk bases name else []

/-- The paths of a template and of the templates it extends (`process_headers.py:49-54`). -/
def templatePaths (sp : Char → Bool) (disk : Disk) (bases : List Path) (name : Path) : List Path :=
  let ps := findTemplatePaths disk bases name
  Lists.uniq id (ps ++ ps.flatMap (findParents sp disk bases))

/-- The context file of a template path (`process_headers.py:174-183`). -/
def contextFile (disk : Disk) (path : Path) : Option Path :=
  let f := div path (parse "context.txt".toList)
  let g := div (parent path) (parse "context.txt".toList)
  if (disk.text f).isSome then some f
  else if (disk.text g).isSome then some g
  else none

/-- `find_additional_context_filepaths` (`process_headers.py:153-185`). -/
def contextFiles (disk : Disk) (paths : List Path) : List Path := Lists.uniq id (paths.filterMap (contextFile disk))

/-- `match_update` for a context that holds only texts, with a dict of texts (`context.py:388-496`): texts are replaced. -/
def updateTexts (d changes : Dict Str Str) : Dict Str Str := changes.foldl (fun d kv => d.set kv.1 kv.2) d

/-- The entries of the context files (`process_headers.py:60-65`), later files having precedence. -/
def templateEntries (P : Py) (sp : Char → Bool) (disk : Disk) (files : List Path) : Dict Str Str :=
  files.foldl (fun d f => updateTexts d (P.strToDict (loadFromString sp ((disk.text f).getD [])).2)) []

inductive Err
  | assertion | typeError
  | update (e : Context.Err)
deriving Repr, DecidableEq

/-- The keys of `find_header_entries` (`context/utils.py:12-29`). The code has a set of them, in any order. -/
def headerKeys (sp : Char → Bool) (d : Dict Str Value) : List Str :=
  (d.filter fun kv => match kv.2 with | .atom (.str s) => hasHeader sp s | _ => false).map Prod.fst

/-- The loop over the entries with a header (`process_headers.py:31-43`). -/
def loadHeaders (P : Py) (sp : Char → Bool) (ctx : Nat) (h : Heap) (entries : Dict Str Str) : List Str → Heap × Dict Str Str
  | [] => (h, entries)
  | k :: keys =>
    match getKey h ctx k with
    | some (.atom (.str s)) =>
      let r := loadFromString sp s
      let v := match r.1 with | some rest => .atom (.str rest) | none => .atom .none
      loadHeaders P sp ctx (setKey h ctx k v) (updateTexts entries (P.strToDict r.2)) keys
    | _ => loadHeaders P sp ctx h entries keys

/-- The context's own template (`process_headers.py:49`); only texts are considered. -/
def templateName (h : Heap) (ctx : Nat) (header : Dict Str Str) : Option Str :=
  match header.get? "template".toList with
  | some (c :: t) => some (c :: t)
  | _ => match getKey h ctx "template".toList with
    | some (.atom (.str s)) => some s
    | _ => none

/-- `context.match_update(texts)` with a new dict of texts (`process_headers.py:74-75`). -/
def updateWith (P : Py) (replace : List Str) (h : Heap) (ctx : Nat) (d : Dict Str Str) : Except Err Heap :=
  match Context.update P replace true (h ++ [.dict (d.map fun kv => (kv.1, .atom (.str kv.2)))]) ctx h.length with
  | .ok h => .ok h
  | .error e => .error (.update e)

/-- `process_headers` (`process_headers.py:14-75`). `order` is the order of the set of keys, `pathVal` are paths as entries of a list,
and `replace` is the class attribute of the context. -/
def processHeaders (P : Py) (sp : Char → Bool) (disk : Disk) (bases : List Path) (replace : List Str) (pathVal : Path → Atom)
    (order : List Str → List Str) (h : Heap) (ctx : Nat) : Except Err Heap :=
  match getKey h ctx "paths".toList with
  | some (.ref p) =>
    match h[p]? with
    | some (.list _) =>
      let r := loadHeaders P sp ctx h [] (order (headerKeys sp (Context.entries h ctx)))
      match templateName r.1 ctx r.2 with
      | none => .error .typeError
      | some name =>
        let paths := templatePaths sp disk bases (parse name)
        let T := templateEntries P sp disk (contextFiles disk paths.reverse)
        match r.1[p]? with
        | some (.list l) =>
          match updateWith P replace (r.1.set p (.list (paths.map (fun q => .atom (pathVal q)) ++ l))) ctx T with
          | .error e => .error e
          | .ok h => updateWith P replace h ctx r.2
        | _ => .error .assertion
    | _ => .error .assertion
  | _ => .error .assertion

end Verif.Template
