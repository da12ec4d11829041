import Verif.Model.Scanner
import Verif.Model.Lists

/-!
# Model of the builders of epub files

Models `/repo/src/disseminate/builders/xhtml2epub.py` and the collection of files in
`/repo/src/disseminate/builders/target_builders/epub_builder.py`.

Given from outside: `resolve` (what `pathlib.Path.resolve` makes of a location), `slug` (`slugify`, an external package), the class
`sp` of spaces, and the files that exist with their texts.
-/

namespace Verif.Epub

open Verif Verif.Paths Verif.Scanner

/-- A parameter of a builder: a path, or something without the attributes of a path. -/
inductive Param
  | path (p : PyPath)
  | value (v : Str)
deriving Repr, DecidableEq

/-- What decides whether two parameters are equal: paths are compared by their locations. -/
def Param.key : Param → Path ⊕ Str
  | .path p => .inl p.full
  | .value v => .inr v

/-- An exception of Python. -/
inductive Err
  | assertion | attribute | type | fileNotFound | scan (e : Scanner.Err)
deriving Repr, DecidableEq

/-- One component in `os.path.normpath`. -/
def normStep (abs : Bool) (acc : List Str) (c : Str) : List Str :=
  if c ≠ ['.', '.'] ∨ (abs = false ∧ acc = []) ∨ acc.getLast? = some ['.', '.'] then acc ++ [c] else acc.dropLast

/-- `os.path.normpath`. -/
def norm (p : Path) : Path := ⟨p.abs, p.parts.foldl (normStep p.abs) []⟩

/-- The loop of `XHtml2Epub.parameters` (`xhtml2epub.py:64-74`). -/
def unresolved (resolve : Path → Path) : List Path → List Param → List Param
  | _, [] => []
  | seen, .value v :: ps => .value v :: unresolved resolve seen ps
  | seen, .path p :: ps =>
    if resolve p.full ∈ seen then unresolved resolve seen ps
    else .path p :: unresolved resolve (resolve p.full :: seen) ps

/-- `XHtml2Epub.parameters` (`xhtml2epub.py:58-76`). -/
def parameters (resolve : Path → Path) (stored : List Param) : List Param := unresolved resolve [] (Lists.uniq Param.key stored)

/-- The parameters that are paths (`xhtml2epub.py:94`, `builders/builder.py:373-376`). -/
def paths (ps : List Param) : List PyPath := ps.filterMap fun p =>
  match p with
  | .path p => some p
  | .value _ => none

/-- The title and the table of contents first (`xhtml2epub.py:96-100`). -/
def frontFirst (fps : List PyPath) : List PyPath :=
  let front := fps.filter (fun p => name p.full = "title.xhtml".toList) ++ fps.filter (fun p => name p.full = "toc.xhtml".toList)
  front ++ fps.filter fun p => !(front.any fun q => q.full = p.full)

/-- `filepath.subpath`. -/
def subpath : PyPath → Except Err Path
  | .plain _ => .error .attribute
  | .source s => .ok s.sub
  | .target t => .ok t.sub
  | .untracked _ => .error .type

/-- An entry of the lists of `filepath_dict_list` (`xhtml2epub.py:147-149`). -/
structure Item where
  id : Str
  subpath : Str
  isToc : Bool
deriving Repr, DecidableEq

/-- `filepath_dict_list` (`xhtml2epub.py:129-150`). -/
def dictList (slug : Str → Str) : List PyPath → Str → Except Err (List Item)
  | [], _ => .ok []
  | p :: ps, sfx =>
    if suffix p.full ≠ sfx then dictList slug ps sfx
    else match subpath p with
      | .error e => .error e
      | .ok sub =>
        match dictList slug ps sfx with
        | .error e => .error e
        | .ok items =>
          let isToc := decide (name p.full = "toc.xhtml".toList)
          let s := toStr (norm sub)
          .ok (⟨if isToc then "toc".toList else slug s, s, isToc⟩ :: items)

/-- What the package file `content.opf` is rendered from (`xhtml2epub.py:102-108`, `templates/default/xhtml/content.opf`): the
manifest has the entries of the three lists, and the reading order is that of `xhtml`. -/
structure Package where
  xhtml : List Item
  svg : List Item
  css : List Item
deriving Repr, DecidableEq

/-- `create_opf_builder` (`xhtml2epub.py:82-127`), as far as the files are concerned. -/
def package (slug : Str → Str) (fps : List PyPath) : Except Err Package :=
  let fps := frontFirst fps
  match dictList slug fps ".xhtml".toList with
  | .error e => .error e
  | .ok x =>
    match dictList slug fps ".svg".toList with
    | .error e => .error e
    | .ok s =>
      match dictList slug fps ".css".toList with
      | .error e => .error e
      | .ok c => .ok ⟨x, s, c⟩

/-- The constructor (`xhtml2epub.py:42-56`). -/
def create (slug : Str → Str) (resolve : Path → Path) (stored : List Param) : Except Err Package :=
  if (paths (parameters resolve stored)).any fun p => name p.full = "toc.xhtml".toList then package slug (paths (parameters resolve stored))
  else .error .assertion

/-- What is written to the archive. -/
inductive Content
  | mimetype | container | package (p : Package) | file (p : PyPath)
deriving Repr, DecidableEq

/-- `ZipFile.write` for a name: the name is normalised and made relative. Simplification: the name is not the root directory. -/
def archived (p : Path) : Str := toStr ⟨false, (norm p).parts⟩

/-- The name in the archive (`xhtml2epub.py:194-200`). -/
def arcName (p : PyPath) : Except Err Path :=
  match p with
  | .plain q => .ok (div (parse "xhtml".toList) q)
  | .source s => .ok (div (parse "xhtml".toList) s.sub)
  | .target t => .ok (div (parse "xhtml".toList) t.sub)
  | .untracked _ => .error .type

/-- The loop over the files (`xhtml2epub.py:190-203`). -/
def writeAll (files : Files) : List PyPath → Except Err (List (Str × Content))
  | [] => .ok []
  | p :: ps =>
    match arcName p with
    | .error e => .error e
    | .ok n =>
      if files p.full = none then .error .fileNotFound
      else match writeAll files ps with
        | .error e => .error e
        | .ok l => .ok ((archived n, .file p) :: l)

/-- `scan_parameters` (`builders/builder.py:366-371`). -/
def scanned (sp : Char → Bool) (files : Files) (resolve : Path → Path) (stored : List Param) : Except Err (List Param) :=
  let ps := parameters resolve stored
  match scan sp files true (paths ps) with
  | .error e => .error (.scan e)
  | .ok found => .ok (Lists.uniq Param.key (ps ++ found.map fun s => .path (.source s)))

/-- `XHtml2Epub.build` (`xhtml2epub.py:152-206`): the entries of the archive, in order. Simplification: the package file is in the archive
what it is rendered from, and the files of the sub-builders have been built. -/
def build (sp : Char → Bool) (files : Files) (slug : Str → Str) (resolve : Path → Path) (stored : List Param) :
    Except Err (List (Str × Content)) :=
  match scanned sp files resolve stored with
  | .error e => .error e
  | .ok stored =>
    let fps := paths (parameters resolve stored)
    match package slug fps with
    | .error e => .error e
    | .ok pkg =>
      match writeAll files fps with
      | .error e => .error e
      | .ok entries =>
        .ok (("mimetype".toList, .mimetype) :: (archived (parse "META-INF/container.xml".toList), .container) ::
          (archived (div (parse "xhtml".toList) (parse "content.opf".toList)), .package pkg) :: entries)

/-- `EpubBuilder.xhtml_filepaths` (`epub_builder.py:56-75`): `docs` are the output files of the builders of the documents, `deps` those
of their dependencies. -/
def xhtmlFilepaths (docs deps : List PyPath) : List PyPath :=
  Lists.uniq PyPath.full ((docs ++ deps).filter fun p => suffix p.full ∈ [".css".toList, ".svg".toList, ".png".toList, ".xhtml".toList])

/-- `has_toc_xhtml` (`epub_builder.py:77-81`): a path is never equal to a text. -/
def hasToc (fps : List PyPath) : Bool := fps.any fun _ => false

/-- The parameters of the epub builder (`epub_builder.py:140-156`); `cache` is `env.cache_path`. -/
def epubParameters (cache : Path) (docs deps : List PyPath) : List Param :=
  let fps := xhtmlFilepaths docs deps
  let fps := if hasToc fps then fps else fps ++ [.target ⟨cache, parse "xhtml".toList, parse "toc.xhtml".toList⟩]
  fps.map .path

end Verif.Epub
