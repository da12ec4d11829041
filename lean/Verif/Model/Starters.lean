import Verif.Model.Utils

/-!
# Model of the command that makes a new project

Models `/repo/src/disseminate/cli/init.py`: the starters in the directory of templates, their names, and the copies of their files.

The disk is the list of its directories and files by their paths from the top. Simplifications: there are no links, every file can be
read and written, and the dates of files are left out. The texts of relative paths are read back as the same paths, so that the paths
are kept as lists of names. What is printed is left out, but for the errors raised on the way.
-/

namespace Verif.Starters

open Verif Verif.Utils

/-- A path from the top of the disk, or one relative to a directory. -/
abbrev Loc := List Str

/-- What is at a path. -/
inductive Node
  | dir
  | file (text : Str)
deriving Repr, DecidableEq

/-- The directories and files. The top directory is not listed. -/
abbrev Disk := Dict Loc Node

/-- The exceptions raised. `fileExists` stands for all errors of `mkdir`. -/
inductive Err
  | badParameter | value | key | index | fileExists | isDir | notFound | sameFile
deriving Repr, DecidableEq

/-- One step of `sortWith`. -/
def insertWith {α : Type} (le : α → α → Bool) (a : α) : List α → List α
  | [] => [a]
  | b :: l => if le a b then a :: b :: l else b :: insertWith le a l

/-- `sorted`, for an order given by `le`: Python's sort is stable, and a stable sort has only one result, here computed by insertion. -/
def sortWith {α : Type} (le : α → α → Bool) : List α → List α
  | [] => []
  | a :: l => insertWith le a (sortWith le l)

/-- `path.is_dir()`. -/
def isDir (d : Disk) (p : Loc) : Bool := p = [] ∨ d.get? p = some .dir

/-- `path.is_file()`. -/
def isFile (d : Disk) (p : Loc) : Bool := match d.get? p with
  | some (.file _) => true
  | _ => false

/-- `path.relative_to(root)` for the paths below a directory. -/
def below (root p : Loc) : Option Loc := if root.isPrefixOf p ∧ root ≠ p then some (p.drop root.length) else none

/-- `root.glob('**/*')`, as paths relative to the root. The order is that of the disk. -/
def glob (d : Disk) (root : Loc) : List Loc := d.keys.filterMap (below root)

/-- `settings.template_starter_dir` (`settings.py:231`). -/
def starterDir : Str := "starters".toList

/-- `settings.template_starter_desc_filename` (`settings.py:232`). -/
def descName : Str := "description.yaml".toList

/-- `path.read_text()`. -/
def readText (d : Disk) (p : Loc) : Except Err Str := match d.get? p with
  | some (.file s) => .ok s
  | some .dir => .error .isDir
  | none => .error .notFound

/-- `starter_path_to_name` (`cli/init.py:70-79`). -/
def pathToName (rel : Loc) : Str := join ['/'] (rel.filter fun part => part ≠ starterDir ∧ part ≠ descName)

/-- `starter_path_template_name` (`cli/init.py:82-89`). -/
def pathTemplate (rel : Loc) : Except Err Str :=
  if starterDir ∈ rel then .ok (join ['/'] (rel.takeWhile (· ≠ starterDir))) else .error .value

/-- A starter: the entries of its description, and the path of that (`_path`). -/
structure Starter where
  entries : Dict Str Str
  path : Loc
deriving Repr, DecidableEq

/-- One step of the loop (`cli/init.py:109-126`): `parse` is `str_to_dict` and `strip` the method of texts. -/
def addStarter (parse : Str → Dict Str Str) (strip : Str → Str) (d : Disk) (templates : Loc) (starters : Dict Str Starter)
    (rel : Loc) : Except Err (Dict Str Starter) := do
  let path := templates ++ rel
  let name := pathToName rel
  let text ← readText d path
  let entries := parse text
  let template ← pathTemplate rel
  let entries := entries.set "template".toList template
  match entries.get? "description".toList with
  | none => .error .key
  | some desc => .ok (starters.set name ⟨entries.set "description".toList (strip desc), path⟩)

/-- The loop over the descriptions (`cli/init.py:109-126`). -/
def addStarters (parse : Str → Dict Str Str) (strip : Str → Str) (d : Disk) (templates : Loc) :
    Dict Str Starter → List Loc → Except Err (Dict Str Starter)
  | starters, [] => .ok starters
  | starters, rel :: rels => do
    let starters ← addStarter parse strip d templates starters rel
    addStarters parse strip d templates starters rels

/-- `generate_starters_dict` (`cli/init.py:92-128`). -/
def generateStarters (parse : Str → Dict Str Str) (strip : Str → Str) (d : Disk) (templates : Loc) : Except Err (Dict Str Starter) :=
  addStarters parse strip d templates [] ((glob d templates).filter fun rel => rel.getLast? = some descName)

/-- `starter_filepaths` (`cli/init.py:131-159`): the paths relative to the starter, and the paths of the files. -/
def starterFiles (d : Disk) (starter : Starter) : Dict Loc Loc :=
  let root := starter.path.dropLast
  ((glob d root).filter fun rel => rel.getLast? ≠ some descName ∧ isFile d (root ++ rel)).map fun rel => (rel, root ++ rel)

/-- `print_starters_list` (`cli/init.py:162-199`): the names, and the first lines of the descriptions. The wrapping of lines and colours are
left out. -/
def startersList (brk : Char → Bool) (starters : Dict Str Starter) : Except Err (List (Str × Str)) :=
  if starters = [] then .error .value
  else (sortWith (fun a b => decide (a.1 ≤ b.1)) starters).mapM fun (name, starter) =>
    match splitlines brk ((starter.entries.get? "description".toList).getD []) with
    | [] => .error .index
    | line :: _ => .ok (name, line)

/-- `is_empty` (`cli/init.py:256-266`). -/
def isEmpty (d : Disk) (p : Loc) : Bool := isDir d p && (glob d p).all fun rel => rel.length ≠ 1

/-- The order of `filepath_key` (`cli/init.py:63-67`). -/
def keyLe (a b : Loc) : Bool := a.length < b.length || (a.length == b.length && decide (a ≤ b))

/-- `path.mkdir(parents=True, exist_ok=True)` for the path `at ++ rest`, when `at` is a directory. -/
def mkdirs (d : Disk) (at' : Loc) : List Str → Except Err Disk
  | [] => .ok d
  | c :: rest =>
    match d.get? (at' ++ [c]) with
    | some .dir => mkdirs d (at' ++ [c]) rest
    | some (.file _) => .error .fileExists
    | none => mkdirs (d.set (at' ++ [c]) .dir) (at' ++ [c]) rest

/-- `shutil.copy2(src, dest)` for a `dest` in a directory: a directory `dest` means the file of the name of `src` in it. -/
def copy2 (d : Disk) (src dest : Loc) : Except Err Disk :=
  let dest := if isDir d dest then dest ++ [src.getLastD []] else dest
  if src = dest then .error .sameFile
  else match d.get? src with
    | some (.file s) => if isDir d dest then .error .isDir else .ok (d.set dest (.file s))
    | some .dir => .error .isDir
    | none => .error .notFound

/-- What the command leaves: the disk, the files copied (relative paths and destinations), and the exception raised. -/
structure Outcome where
  disk : Disk
  copied : List (Loc × Loc)
  error : Option Err
deriving Repr, DecidableEq

/-- The loop of `clone_starter` (`cli/init.py:304-328`). -/
def copyAll (d : Disk) (out : Loc) (copied : List (Loc × Loc)) : List (Loc × Loc) → Outcome
  | [] => ⟨d, copied, none⟩
  | (rel, src) :: files =>
    let dest := out ++ rel
    match mkdirs d [] dest.dropLast with
    | .error e => ⟨d, copied, some e⟩
    | .ok d1 => match copy2 d1 src dest with
      | .error e => ⟨d1, copied, some e⟩
      | .ok d2 => copyAll d2 out (copied ++ [(rel, dest)]) files

/-- `clone_starter` (`cli/init.py:269-328`). `confirm` is the answer to the question. Without files, `max` raises an error
(`cli/init.py:302`). -/
def cloneStarter (d : Disk) (starter : Starter) (out : Loc) (nonInteractive confirm : Bool) : Outcome :=
  if !nonInteractive && !isEmpty d out && !confirm then ⟨d, [], none⟩
  else
    let files := starterFiles d starter
    if files = [] then ⟨d, [], some .value⟩
    else copyAll d out [] (sortWith (fun a b => keyLe a.1 b.1) files)

/-- The command `init` (`cli/init.py:34-60`). `out` is the directory given, or the current one (`cli/init.py:287-288`). -/
def init (parse : Str → Dict Str Str) (strip : Str → Str) (brk : Char → Bool) (d : Disk) (templates : Loc) (names : List Str) (out : Loc)
    (info showList nonInteractive confirm : Bool) : Outcome :=
  match generateStarters parse strip d templates with
  | .error e => ⟨d, [], some e⟩
  | .ok starters =>
    match names with
    | [] => match startersList brk starters with
      | .error e => ⟨d, [], some e⟩
      | .ok _ => ⟨d, [], none⟩
    | name :: _ =>
      if showList then match startersList brk starters with
        | .error e => ⟨d, [], some e⟩
        | .ok _ => ⟨d, [], none⟩
      else match starters.get? name with
        | none => ⟨d, [], some .badParameter⟩
        | some starter => if info then ⟨d, [], none⟩ else cloneStarter d starter out nonInteractive confirm

end Verif.Starters
