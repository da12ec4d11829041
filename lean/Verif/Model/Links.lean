import Verif.Model.Paths
import Verif.Model.Labels
import Verif.Model.Document

/-!
# Model of links and references

Models `TargetPath.get_url` of `/repo/src/disseminate/paths/paths.py` (with `os.path.relpath` of Python's
standard library) and `Ref.document` and `Ref.url` of `/repo/src/disseminate/tags/ref.py`.

Simplifications: a document is given by its `target_filepath` method; the text of `str.format` has plain fields only
(conversions, format specifications and attributes are read as unknown fields).
-/

namespace Verif.Links

open Verif Verif.Paths Verif.Labels

/-- The exceptions raised by the functions of this file. -/
inductive Err
  | labelNotFound | targetNotFound | attribute | ref | key | value
deriving Repr, DecidableEq

/-- One component in `os.path.normpath`, for an absolute path. -/
def normStep (acc : List Str) (c : Str) : List Str := if c = ['.', '.'] then acc.dropLast else acc ++ [c]

/-- The components of `os.path.abspath(path)`; `cwd` are those of the current directory. -/
def absParts (cwd : List Str) (p : Path) : List Str := ((if p.abs then [] else cwd) ++ p.parts).foldl normStep []

/-- The length of `os.path.commonprefix` of two lists. -/
def commonLen : List Str → List Str → Nat
  | a :: s, b :: t => if a = b then commonLen s t + 1 else 0
  | _, _ => 0

/-- The components in `os.path.relpath`. -/
def relParts (start path : List Str) : List Str :=
  List.replicate (start.length - commonLen start path) ['.', '.'] ++ path.drop (commonLen start path)

/-- `os.path.relpath(path, start)`. -/
def relpath (cwd : List Str) (path start : Path) : Str :=
  match relParts (absParts cwd start) (absParts cwd path) with
  | [] => ['.']
  | l => join ['/'] l

/-- `document.target_filepath` (`document/document.py:176-190`). -/
abbrev Files := Str → Except Err (Option TargetPath)

/-- The entries of a context that matter for links: `relative_links`, the document (`document`, or else
`root_document`) and `base_url`. -/
structure Ctx where
  relative : Option Bool
  document : Option Files
  baseUrl : Option Str

/-- A period before a text, if there is none: `t if t.startswith('.') else '.' + t`. -/
def withDot (t : Str) : Str := if t.head? = some '.' then t else '.' :: t

/-- `str(target or self.target)` (`paths/paths.py:201`, `:234`); an empty text is false. -/
def targetName (t : TargetPath) : Option Str → Str
  | some (c :: s) => c :: s
  | _ => toStr t.target

/-- `_get_relative_url` (`paths/paths.py:198-228`). -/
def relativeUrl (cwd : List Str) (t : TargetPath) (ctx : Ctx) (target : Option Str) : Except Err (Option Str) :=
  match ctx.document with
  | none => .ok none
  | some files =>
    match files (withDot (targetName t target)) with
    | .error e => .error e
    | .ok none => .error .attribute
    | .ok (some f) => .ok (some (relpath cwd t.full (parent f.full)))

/-- `str.format` with named fields; the first argument is the name of the field that is being read. -/
def format (look : Str → Option Str) : Option Str → Str → Except Err Str
  | none, [] => .ok []
  | some _, [] => .error .value
  | none, '{' :: '{' :: t => (format look none t).map ('{' :: ·)
  | none, '}' :: '}' :: t => (format look none t).map ('}' :: ·)
  | none, '{' :: t => format look (some []) t
  | none, '}' :: _ => .error .value
  | none, c :: t => (format look none t).map (c :: ·)
  | some n, '}' :: t =>
    match look n with
    | some v => (format look none t).map (v ++ ·)
    | none => .error .key
  | some n, c :: t => format look (some (n ++ [c])) t

/-- The fields of a `base_url` (`paths/paths.py:240-241`). -/
def urlField (t : TargetPath) (target : Option Str) (n : Str) : Option Str :=
  if n = "target_root".toList then some (stripDots (toStr t.root))
  else if n = "target".toList then some (stripDots (targetName t target))
  else if n = "subpath".toList then some (stripDots (toStr t.sub))
  else none

/-- `'/{target}/{subpath}'` (`paths/paths.py:238`, `settings.py:106`). -/
def defaultUrl : Str := "/{target}/{subpath}".toList

/-- `_get_absolute_url` (`paths/paths.py:230-241`). -/
def absoluteUrl (t : TargetPath) (baseUrl target : Option Str) : Except Err Str :=
  format (urlField t target) none (baseUrl.getD defaultUrl)

/-- `re_dbl_slash.sub('/', url)` (`paths/paths.py:12`, `:194`): `//` not behind a `:`; `prev` is the character before. -/
def dblSlash : Option Char → Str → Str
  | _, [] => []
  | _, [c] => [c]
  | prev, c :: d :: t =>
    if c = '/' ∧ d = '/' ∧ prev ≠ some ':' then '/' :: dblSlash (some '/') t else c :: dblSlash (some c) (d :: t)

/-- `get_url` (`paths/paths.py:179-196`). -/
def getUrl (cwd : List Str) (t : TargetPath) (ctx : Option Ctx) (target : Option Str) : Except Err Str := do
  let rel ← match ctx with
    | some c => if c.relative.getD true then relativeUrl cwd t c target else .ok none
    | none => .ok none
  let url ← match rel with
    | some u => .ok u
    | none => absoluteUrl t (ctx.bind Ctx.baseUrl) target
  return dblSlash none (rstrip (· = '/') url)

/-- `Ref.document` (`tags/ref.py:88-138`): the files of the document that owns a label. `docs` is `documents_by_id` of
the root document, `own` the document of the tag. -/
def refDocument (docId : Option Str) (own : Option Files) (docs : Dict Str Files) (label : Label) : Option Files :=
  if docId = some label.docId then own else docs.get? label.docId

/-- `Ref.url` (`tags/ref.py:140-194`) for a label that was found; the result may be `None`. -/
def refUrl (cwd : List Str) (docId : Option Str) (ctx : Ctx) (docs : Dict Str Files) (label : Label) (target : Str)
    (anchor : Bool) : Except Err (Option Str) :=
  match docId with
  | none => .error .ref
  | some d =>
    if d = label.docId then .ok (some (if anchor then '#' :: label.id else []))
    else
      match refDocument docId ctx.document docs label with
      | none => .error .attribute
      | some files =>
        match files (withDot target) with
        | .error e => .error e
        | .ok none => .ok none
        | .ok (some t) =>
          match getUrl cwd t (some ctx) none with
          | .error e => .error e
          | .ok link => .ok (some (if anchor then link ++ '#' :: label.id else link))

/-- The `href` of a reference in html (`tags/ref.py:337-366`) and the link before `.tex` is added in LaTeX
(`tags/ref.py:267-292`): the label is looked up, and a document label gets no anchor. -/
def refLink (cwd : List Str) (m : Manager) (env : Labels.Env) (sep : Str) (docId : Option Str) (ctx : Ctx)
    (docs : Dict Str Files) (id target : Str) : Except Err (Option Str) :=
  match (m.getLabel env sep id).2 with
  | none => .error .labelNotFound
  | some label => refUrl cwd docId ctx docs label target label.content

end Verif.Links
