import Verif.Model.Utils

/-!
# Model of the paths

Models `/repo/src/disseminate/paths/paths.py` (`SourcePath`, `TargetPath` and their `use_*` methods),
`/repo/src/disseminate/paths/utils.py` (`rename`, `find_files`, `find_file`),
`generate_outfilepath` of `/repo/src/disseminate/builders/utils.py` and the search for projects in
`/repo/src/disseminate/builders/environment.py`.

The code relies on Python's `pathlib` (POSIX flavour, the implementation of Python 3.7 to 3.11); the
definitions `parse` to `withSuffix` below model the parts of it that are used. Simplifications: the
implementation defined root `//` is read as `/`, the file system is a function given from outside, and
`expanduser` is left out.
-/

namespace Verif.Paths

open Verif Verif.Utils

/-- A `pathlib` path: whether it has the root `/` and its components. -/
structure Path where
  abs : Bool
  parts : List Str
deriving Repr, DecidableEq

/-- The exceptions raised by the functions of this file. -/
inductive PathError
  | assertion | value | notFound | os | type
deriving Repr, DecidableEq

/-- `pathlib.Path(s)`: the empty components and `.` are dropped. -/
def parse (s : Str) : Path := ⟨s.head? = some '/', (split ['/'] s).filter fun c => c ≠ [] ∧ c ≠ ['.']⟩

/-- `str(path)`. -/
def toStr (p : Path) : Str :=
  if p.abs then '/' :: join ['/'] p.parts
  else if p.parts = [] then ['.'] else join ['/'] p.parts

/-- `a / b` and `pathlib.Path(a, b)`: an absolute `b` replaces `a`. -/
def div (a b : Path) : Path := if b.abs then b else ⟨a.abs, a.parts ++ b.parts⟩

/-- `path.name`. -/
def name (p : Path) : Str := p.parts.getLast?.getD []

/-- `path.parent`. -/
def parent (p : Path) : Path := ⟨p.abs, p.parts.dropLast⟩

/-- A text cut at its last `.`, as with `rfind('.')`. -/
def lastDot : Str → Option (Str × Str)
  | [] => none
  | c :: t =>
    match lastDot t with
    | some (a, b) => some (c :: a, b)
    | none => if c = '.' then some ([], t) else none

/-- `path.suffix`: from the last `.` of the name, if that is neither its first nor its last character. -/
def suffix (p : Path) : Str :=
  match lastDot (name p) with
  | some (a, b) => if a ≠ [] ∧ b ≠ [] then '.' :: b else []
  | none => []

/-- `path.stem`. -/
def stem (p : Path) : Str :=
  match lastDot (name p) with
  | some (a, b) => if a ≠ [] ∧ b ≠ [] then a else name p
  | none => name p

/-- `path.with_name(n)`. -/
def withName (p : Path) (n : Str) : Except PathError Path :=
  if name p = [] then .error .value
  else if n = [] ∨ n.getLast? = some '/' ∨ (parse n).abs = true ∨ (parse n).parts.length ≠ 1 then .error .value
  else .ok ⟨p.abs, p.parts.dropLast ++ [n]⟩

/-- `path.with_suffix(x)`. -/
def withSuffix (p : Path) (x : Str) : Except PathError Path :=
  if '/' ∈ x then .error .value
  else if (x ≠ [] ∧ x.head? ≠ some '.') ∨ x = ['.'] then .error .value
  else if name p = [] then .error .value
  else
    let n := if suffix p = [] then name p ++ x else (name p).take ((name p).length - (suffix p).length) ++ x
    .ok ⟨p.abs, p.parts.dropLast ++ [n]⟩

/-- A `SourcePath` (`paths/paths.py:25-71`): the path is `project_root / subpath`. -/
structure SourcePath where
  root : Path
  sub : Path
deriving Repr, DecidableEq

/-- A `TargetPath` (`paths/paths.py:121-177`): the path is `target_root / target / subpath`. -/
structure TargetPath where
  root : Path
  target : Path
  sub : Path
deriving Repr, DecidableEq

/-- The location of a `SourcePath` (`paths/paths.py:61`). -/
def SourcePath.full (s : SourcePath) : Path := div s.root s.sub

/-- The location of a `TargetPath` (`paths/paths.py:164-168`). -/
def TargetPath.full (t : TargetPath) : Path := div (div t.root t.target) t.sub

/-- `SourcePath(project_root, subpath)` (`paths/paths.py:40-64`). -/
def mkSource (root sub : Str) : Except PathError SourcePath :=
  if (parse sub).abs then .error .assertion else .ok ⟨parse root, parse sub⟩

/-- `s.strip('.')`. -/
def stripDots (s : Str) : Str := strip (fun c => c = '.') s

/-- `TargetPath(target_root, target, subpath)` (`paths/paths.py:139-169`). -/
def mkTarget (root target sub : Str) : Except PathError TargetPath :=
  if (parse sub).abs then .error .assertion else .ok ⟨parse root, parse (stripDots target), parse sub⟩

/-- `SourcePath.use_name` (`paths/paths.py:72-86`). -/
def SourcePath.useName (s : SourcePath) (n : Str) : Except PathError SourcePath := do
  let p ← withName s.sub n
  mkSource (toStr s.root) (toStr p)

/-- `SourcePath.use_suffix` (`paths/paths.py:88-103`). -/
def SourcePath.useSuffix (s : SourcePath) (x : Str) : Except PathError SourcePath := do
  let p ← withSuffix s.sub x
  mkSource (toStr s.root) (toStr p)

/-- `SourcePath.use_subpath` (`paths/paths.py:105-118`). -/
def SourcePath.useSubpath (s : SourcePath) (sub : Str) : Except PathError SourcePath :=
  mkSource (toStr s.root) sub

/-- `TargetPath.use_name` (`paths/paths.py:243-259`). -/
def TargetPath.useName (t : TargetPath) (n : Str) : Except PathError TargetPath := do
  let p ← withName t.sub n
  mkTarget (toStr t.root) (toStr t.target) (toStr p)

/-- `TargetPath.use_suffix` (`paths/paths.py:261-277`). -/
def TargetPath.useSuffix (t : TargetPath) (x : Str) : Except PathError TargetPath := do
  let p ← withSuffix t.sub x
  mkTarget (toStr t.root) (toStr t.target) (toStr p)

/-- `TargetPath.use_subpath` (`paths/paths.py:279-293`). -/
def TargetPath.useSubpath (t : TargetPath) (sub : Str) : Except PathError TargetPath :=
  mkTarget (toStr t.root) (toStr t.target) sub

/-- `rename` (`paths/utils.py:8-60`). -/
def rename (p : Path) (filename append extension : Option Str) : Path :=
  let fn := filename.getD (stem p) ++ append.getD []
  let e := extension.getD (suffix p)
  let e := if e.head? = some '.' then e else '.' :: e
  div (parent p) (parse (fn ++ e))

/-- The path objects that the code meets: a `pathlib.Path`, a `SourcePath`, a `TargetPath`, or a path
obtained from one of the latter by a `pathlib` operation (like `.parent`), which has their class but whose
`project_root` (or `target_root`) and `subpath` are `None`. -/
inductive PyPath
  | plain (p : Path)
  | source (s : SourcePath)
  | target (t : TargetPath)
  | untracked (p : Path)
deriving Repr, DecidableEq

/-- The location of a path object. -/
def PyPath.full : PyPath → Path
  | .plain p => p
  | .source s => s.full
  | .target t => t.full
  | .untracked p => p

/-- The candidate of `find_file` in a search path (`paths/utils.py:156-162`). An untracked path has the
`project_root` `None`, which `use_subpath` converts to the text `None`. -/
def candidate (p : PyPath) (path : Path) : Except PathError PyPath :=
  match p with
  | .plain q => .ok (.plain (div q path))
  | .source s => (s.useSubpath (toStr (div s.sub path))).map .source
  | .target t => (t.useSubpath (toStr (div t.sub path))).map .target
  | .untracked _ => (mkSource "None".toList (toStr path)).map .source

/-- The loop of `find_file` (`paths/utils.py:155-169`). `isFile` is `Path.is_file`, which may raise an
`OSError` (a name that is too long). -/
def searchLoop (isFile : Path → Except PathError Bool) (path : Path) (raising : Bool) :
    List PyPath → Except PathError (Option PyPath)
  | [] => .ok none
  | p :: ps =>
    match candidate p path with
    | .error e => .error e
    | .ok c =>
      match isFile c.full with
      | .ok true => .ok (some c)
      | .ok false => searchLoop isFile path raising ps
      | .error e => if raising then .error e else searchLoop isFile path raising ps

/-- `find_file` for a path (`paths/utils.py:128-175`). -/
def findPath (isFile : Path → Except PathError Bool) (path : PyPath) (paths : List PyPath) (raising : Bool) :
    Except PathError (Option PyPath) :=
  let rest : Except PathError (Option PyPath) :=
    if path.full.abs then (if raising then .error .notFound else .ok none)
    else match searchLoop isFile path.full raising (.plain (parse ['.']) :: paths) with
      | .error e => .error e
      | .ok (some c) => .ok (some c)
      | .ok none => if raising then .error .notFound else .ok none
  match isFile path.full with
  | .ok true => .ok (some path)
  | .ok false => rest
  | .error e => if raising then .error e else rest

/-- The argument of `find_file`. -/
inductive FileArg
  | text (s : Str)
  | path (p : PyPath)
  | other
deriving Repr, DecidableEq

/-- The first line of a text, without the spaces around the text (`paths/utils.py:126-128`). -/
def firstLine (sp brk : Char → Bool) (s : Str) : Str := (splitlines brk (strip sp s)).head?.getD []

/-- `find_file` (`paths/utils.py:100-175`). -/
def findFile (sp brk : Char → Bool) (isFile : Path → Except PathError Bool) (arg : FileArg) (paths : List PyPath)
    (raising : Bool) : Except PathError (Option PyPath) :=
  match arg with
  | .text s => findPath isFile (.plain (parse (firstLine sp brk s))) paths raising
  | .path p => findPath isFile p paths raising
  | .other => if raising then .error .notFound else .ok none

/-- The loop of `find_files` (`paths/utils.py:88-95`). -/
def filesLoop (sp brk : Char → Bool) (isFile : Path → Except PathError Bool) (paths : List PyPath) :
    List Str → Except PathError (List PyPath)
  | [] => .ok []
  | l :: ls =>
    if l = [] then filesLoop sp brk isFile paths ls
    else match findFile sp brk isFile (.text l) paths false with
      | .error e => .error e
      | .ok none => filesLoop sp brk isFile paths ls
      | .ok (some p) =>
        match filesLoop sp brk isFile paths ls with
        | .error e => .error e
        | .ok r => .ok (p :: r)

/-- `find_files` (`paths/utils.py:63-97`). -/
def findFiles (sp brk : Char → Bool) (isFile : Path → Except PathError Bool) (s : Str) (paths : List PyPath) :
    Except PathError (List PyPath) := filesLoop sp brk isFile paths (splitlines brk (strip sp s))

/-- The parts of a build environment read by `generate_outfilepath`
(`builders/environment.py:86-101`). -/
structure Env where
  targetRoot : Path
  cachePath : Path
  mediaPath : Option Str
deriving Repr, DecidableEq

/-- A parameter of a builder: a path or something else. -/
inductive Param
  | path (p : PyPath)
  | other
deriving Repr, DecidableEq

/-- `[fp for fp in parameters if isinstance(fp, pathlib.Path)]` (`builders/utils.py:137`). -/
def pathParams : List Param → List PyPath
  | [] => []
  | .path p :: l => p :: pathParams l
  | .other :: l => pathParams l

/-- The target of `generate_outfilepath` (`builders/utils.py:150-156`), as the text passed on. -/
def outTarget (target : Option Str) (p : PyPath) : Str :=
  match target with
  | some t => stripDots t
  | none =>
    match p with
    | .target t => toStr t.target
    | _ => []

/-- The subpath of `generate_outfilepath` (`builders/utils.py:158-164`); `none` for a subpath `None`. -/
def outSub (p : PyPath) : Option Path :=
  let only (q : Path) : Path := if q.abs then parse (name q) else q
  match p with
  | .plain q => some (only q)
  | .source s => some (only s.sub)
  | .target t => some (only t.sub)
  | .untracked _ => none

/-- `generate_outfilepath` (`builders/utils.py:93-175`), for a list of parameters. -/
def generateOut (env : Env) (params : List Param) (target append ext : Option Str) (useCache useMedia : Bool) :
    Except PathError (Option TargetPath) :=
  match pathParams params with
  | [] => .ok none
  | p :: _ =>
    let root := if useCache then env.cachePath else env.targetRoot
    let media := if useMedia then env.mediaPath.getD [] else []
    match outSub p with
    | none => .error .type
    | some sub =>
      let sub :=
        if media ≠ [] ∧ ¬ media.isPrefixOf (toStr sub) = true then rename (div (parse media) sub) none append ext
        else rename sub none append ext
      (mkTarget (toStr root) (outTarget target p) (toStr sub)).map some

/-- An entry of the file system: its location and whether it is a directory. -/
structure FsEntry where
  path : Path
  isDir : Bool
deriving Repr, DecidableEq

/-- The entries found by `root_path.glob('**/*' + extension)` (`builders/environment.py:129-130`):
`entries` lists what is below `root_path`; `glob` looks at the names only. -/
def globDocs (entries : List FsEntry) (ext : Str) : List Path :=
  (entries.map FsEntry.path).filter fun p => ext.isSuffixOf (name p)

/-- `path.parents`. -/
def parents (p : Path) : List Path := (List.range p.parts.length).reverse.map fun i => ⟨p.abs, p.parts.take i⟩

/-- The base paths (`builders/environment.py:132-143`). The code collects them in sets; the model in lists
without repetition, in the order of the entries. -/
def basePaths (entries : List FsEntry) (ext : Str) : List Path :=
  let paths := ((globDocs entries ext).map parent).eraseDups
  paths.filter fun p => !(parents p).any fun q => paths.contains q

/-- The entries found by `project_path.glob('*' + extension)` (`builders/environment.py:152-156`). -/
def globDir (entries : List FsEntry) (ext : Str) (dir : Path) : List Path :=
  (globDocs entries ext).filter fun p => parent p = dir

/-- `_get_src_filepaths` (`builders/environment.py:122-160`). -/
def srcFilepaths (entries : List FsEntry) (ext : Str) : List SourcePath :=
  (basePaths entries ext).flatMap fun dir =>
    (globDir entries ext dir).map fun p => ⟨dir, ⟨false, p.parts.drop dir.parts.length⟩⟩

/-- `Environment.get_target_root` (`builders/environment.py:111-120`); the directory of `settings.py:14`. -/
def getTargetRoot (projectRoot : Path) : Path :=
  if name projectRoot = "src".toList then parent projectRoot else projectRoot

end Verif.Paths
