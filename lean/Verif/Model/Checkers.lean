import Verif.Model.Strings

/-!
# Model of the checkers of software dependencies

Models `/repo/src/disseminate/checkers/{types,checker,python,pdf,utils}.py`. The dependencies are modelled as values, so
that a check gives the changed dependencies. Simplification: the paths of executables are left out.
-/

namespace Verif.Checkers

open Verif

/-- The classes `Any`, `All` and `Optional` (`checkers/types.py:135-159`). -/
inductive Kind
  | any | all | optional
deriving Repr, DecidableEq

/-- `SoftwareDependency` with its attribute `available`, and `SoftwareDependencyList` (`checkers/types.py:4-62`). -/
inductive Dep
  | prog (name : Str) (available : Option Bool)
  | group (kind : Kind) (category : Str) (deps : List Dep)
deriving Repr

/-- The exceptions. -/
inductive CheckError
  | missingHandler | type | value
deriving Repr, DecidableEq

mutual
/-- `i.available is True` (`checkers/types.py:130-159`). -/
def available : Dep → Bool
  | .prog _ a => match a with | some true => true | _ => false
  | .group .any _ ds => anyAvailable ds
  | .group .all _ ds => allAvailable ds
  | .group .optional _ _ => true

/-- `any(i.available is True for i in self.dependencies)` (`checkers/types.py:141`). -/
def anyAvailable : List Dep → Bool
  | [] => false
  | d :: ds => available d || anyAvailable ds

/-- `all(i.available is True for i in self.dependencies)` (`checkers/types.py:150`). -/
def allAvailable : List Dep → Bool
  | [] => true
  | d :: ds => available d && allAvailable ds
end

mutual
/-- One item of `SoftwareDependencyList.flatten` (`checkers/types.py:114-120`), with `n` levels left before the
recursion check fails; `none` for the error from adding `None` to a list. -/
def flattenItem (n level : Nat) : Dep → Option (List (Nat × Dep))
  | .prog m a => some [(level, .prog m a)]
  | .group k c ds =>
    match n with
    | 0 => none
    | n + 1 => (flattenItems n (level + 1) ds).map ((level, .group k c ds) :: ·)

/-- The loop of `flatten` (`checkers/types.py:114-122`). -/
def flattenItems (n level : Nat) : List Dep → Option (List (Nat × Dep))
  | [] => some []
  | d :: ds =>
    match flattenItem n level d, flattenItems n level ds with
    | some l, some ls => some (l ++ ls)
    | _, _ => none
end

/-- `SoftwareDependencyList.flatten` (`checkers/types.py:89-122`): the levels are 1 to 16. -/
def flatten (ds : List Dep) : Option (List (Nat × Dep)) := flattenItems 15 1 ds

mutual
/-- The availability of all software dependencies of a tree is set by `f`. -/
def mapProgs (f : Str → Option Bool → Option Bool) : Dep → Dep
  | .prog n a => .prog n (f n a)
  | .group k c ds => .group k c (mapAll f ds)

def mapAll (f : Str → Option Bool → Option Bool) : List Dep → List Dep
  | [] => []
  | d :: ds => mapProgs f d :: mapAll f ds
end

/-- The item of a loop in `Checker.check_executables` (`checkers/checker.py:66-76`): an executable that has been
looked up is skipped. -/
def lookUp (which : Str → Bool) (name : Str) (a : Option Bool) : Option Bool :=
  match a with
  | some b => some b
  | none => some (which name)

/-- `Checker.check_executables` (`checkers/checker.py:49-79`) on the item `self['executables']`: a single dependency
cannot be iterated over. -/
def checkExecutables (which : Str → Bool) : Dep → Except CheckError Dep
  | .prog _ _ => .error .type
  | .group k c ds => .ok (.group k c (mapAll (lookUp which) ds))

/-- `PdfChecker.check_kpsewhich` (`checkers/pdf.py:35-78`), with `kpse` the executable if it is installed. The items of
the chunks are those of the list. -/
def checkKpse (kpse : Option (Str → Bool)) (ext : Str) : Dep → Except CheckError Dep
  | .prog n a => match kpse with | none => .ok (.prog n a) | some _ => .error .type
  | .group k c ds =>
    match kpse with
    | none => .ok (.group k c ds)
    | some look => .ok (.group k c (mapAll (fun n _ => some (look (n ++ ext))) ds))

/-! ## Versions -/

inductive Op
  | eq | ge | le | gt | lt | ne
deriving Repr, DecidableEq

/-- `(==|>=|<=|>|<|!=)?` (`checkers/utils.py:39`). -/
def matchOp : Str → Option Op × Str
  | '=' :: '=' :: s => (some .eq, s)
  | '>' :: '=' :: s => (some .ge, s)
  | '<' :: '=' :: s => (some .le, s)
  | '>' :: s => (some .gt, s)
  | '<' :: s => (some .lt, s)
  | '!' :: '=' :: s => (some .ne, s)
  | s => (none, s)

/-- `int(s)` of a string of digits; `none` for the empty string. Simplification: ASCII digits. -/
def toInt (s : Str) : Option Nat :=
  if s = [] || !s.all Char.isDigit then none else some (s.foldl (fun n c => 10 * n + (c.toNat - 48)) 0)

/-- The loop of `map(int, …)`: a `ValueError` if an item is not a number. -/
def toInts : List Str → Option (List Nat)
  | [] => some []
  | s :: l =>
    match toInt s, toInts l with
    | some n, some ns => some (n :: ns)
    | _, _ => none

def nameChar (word : Char → Bool) (c : Char) : Bool := word c || c = '.' || c = '-' || c = '_'

def versionChar (c : Char) : Bool := c.isDigit || c = '.'

/-- `name_and_version` (`checkers/utils.py:8-65`): `.ok none` if there is no name in the string. -/
def nameAndVersion (word sp : Char → Bool) (s : Str) : Except CheckError (Option (Str × Option Op × Option (List Nat))) :=
  let s1 := s.dropWhile fun c => !nameChar word c
  if s1 = [] then .ok none
  else
    let name := s1.takeWhile (nameChar word)
    let r := matchOp ((s1.dropWhile (nameChar word)).dropWhile sp)
    let v := (r.2.dropWhile sp).takeWhile versionChar
    if v = [] then .ok (some (name, r.1, none))
    else
      match toInts (split ".".toList v) with
      | none => .error .value
      | some ns => .ok (some (name, r.1, some ns))

/-- `<` of tuples of integers. -/
def tupleLt : List Nat → List Nat → Bool
  | _, [] => false
  | [], _ :: _ => true
  | a :: as, b :: bs => a < b || (a == b && tupleLt as bs)

/-- The operator applied to two tuples. -/
def Op.apply : Op → List Nat → List Nat → Bool
  | .eq, a, b => a == b
  | .ne, a, b => !(a == b)
  | .lt, a, b => tupleLt a b
  | .gt, a, b => tupleLt b a
  | .le, a, b => !tupleLt b a
  | .ge, a, b => !tupleLt a b

/-- `op(installed_ver, ver)` (`checkers/python.py:103`) where `op` or `ver` may be `None`. -/
def applyOp (op : Option Op) (installed : List Nat) (ver : Option (List Nat)) : Except CheckError Bool :=
  match op, ver with
  | none, _ => .error .type
  | some op, some v => .ok (op.apply installed v)
  | some .eq, none => .ok false
  | some .ne, none => .ok true
  | some _, none => .error .type

/-- A package in `PythonChecker.check_packages_pip` (`checkers/python.py:62-105`), given the list of installed
packages. -/
def checkPackage (word sp : Char → Bool) (lower : Str → Str) (freeze : List Str) (name : Str) (a : Option Bool) :
    Except CheckError (Option Bool) :=
  match nameAndVersion word sp name with
  | .error e => .error e
  | .ok none => .ok a
  | .ok (some (n, op, ver)) =>
    match freeze.filter fun i => (lower n).isPrefixOf i with
    | [] => .ok a
    | installed :: _ =>
      match nameAndVersion word sp installed with
      | .error e => .error e
      | .ok none => .ok a
      | .ok (some (_, _, iver)) =>
        if op = none && ver = none then .ok (some true)
        else
          match iver with
          | none => .ok a
          | some iv =>
            match applyOp op iv ver with
            | .error e => .error e
            | .ok true => .ok (some true)
            | .ok false => .ok a

mutual
/-- `PythonChecker.check_packages_pip` (`checkers/python.py:42-111`). -/
def checkPip (f : Str → Option Bool → Except CheckError (Option Bool)) : Dep → Except CheckError Dep
  | .prog n a =>
    match f n a with
    | .error e => .error e
    | .ok b => .ok (.prog n b)
  | .group k c ds =>
    match checkPips f ds with
    | .error e => .error e
    | .ok es => .ok (.group k c es)

/-- The loop over the packages (`checkers/python.py:107-111`). -/
def checkPips (f : Str → Option Bool → Except CheckError (Option Bool)) : List Dep → Except CheckError (List Dep)
  | [] => .ok []
  | d :: ds =>
    match checkPip f d with
    | .error e => .error e
    | .ok e =>
      match checkPips f ds with
      | .error x => .error x
      | .ok es => .ok (e :: es)
end

/-! ## Checkers -/

/-- The name or category of a dependency (`checkers/types.py:63-69,124-128`). -/
def key : Dep → Str
  | .prog n _ => n
  | .group _ c _ => c

/-- The handler is run on `self[category]`, the first item with that name or category (`checkers/types.py:63-69`). -/
def updateFirst (k : Str) (f : Dep → Except CheckError Dep) : List Dep → Except CheckError (List Dep)
  | [] => .ok []
  | d :: ds =>
    if key d = k then
      match f d with
      | .error e => .error e
      | .ok d' => .ok (d' :: ds)
    else
      match updateFirst k f ds with
      | .error e => .error e
      | .ok ds' => .ok (d :: ds')

/-- The categories of the lists (`checkers/checker.py:34-35`). -/
def categories : List Dep → List Str
  | [] => []
  | .prog _ _ :: ds => categories ds
  | .group _ c _ :: ds => c :: categories ds

/-- The loop of `Checker.check` (`checkers/checker.py:36-46`), given the methods `check_…` of the checker. -/
def runHandlers (handlers : Str → Option (Dep → Except CheckError Dep)) : List Str → List Dep → Except CheckError (List Dep)
  | [], ds => .ok ds
  | c :: cs, ds =>
    match handlers c with
    | none => .error .missingHandler
    | some f =>
      match updateFirst c f ds with
      | .error e => .error e
      | .ok ds' => runHandlers handlers cs ds'

/-- `Checker.check` (`checkers/checker.py:32-47`): the availability and the changed dependencies. -/
def check (handlers : Str → Option (Dep → Except CheckError Dep)) (ds : List Dep) : Except CheckError (Bool × List Dep) :=
  match runHandlers handlers (categories ds) ds with
  | .error e => .error e
  | .ok ds' => .ok (allAvailable ds', ds')

/-- The handlers of `Checker` (`checkers/checker.py:49,81`): without methods for packages nothing is done for
them. -/
def baseHandlers (which : Str → Bool) (c : Str) : Option (Dep → Except CheckError Dep) :=
  if c = "executables".toList then some (checkExecutables which)
  else if c = "packages".toList then some .ok
  else none

/-- The handlers of `PythonChecker` (`checkers/python.py:42`); `freeze` is `None` if `pip` fails. -/
def pythonHandlers (which : Str → Bool) (word sp : Char → Bool) (lower : Str → Str) (freeze : Option (List Str)) (c : Str) :
    Option (Dep → Except CheckError Dep) :=
  if c = "executables".toList then some (checkExecutables which)
  else if c = "packages".toList then
    match freeze with
    | none => some .ok
    | some l => some (checkPip (checkPackage word sp lower l))
  else none

/-- The handlers of `PdfChecker` (`checkers/pdf.py:19,79,94,109`). -/
def pdfHandlers (which : Str → Bool) (kpse : Option (Str → Bool)) (c : Str) : Option (Dep → Except CheckError Dep) :=
  if c = "executables".toList then some (checkExecutables which)
  else if c = "packages".toList then some (checkKpse kpse ".sty".toList)
  else if c = "fonts".toList then some (checkKpse kpse ".tfm".toList)
  else if c = "classes".toList then some (checkKpse kpse ".cls".toList)
  else none

/-- A dependency that has not been checked. -/
def new (s : String) : Dep := .prog s.toList none

/-- `python_deps` (`software_dependencies.py:7-14`). -/
def pythonDeps : List Dep :=
  [.group .any "executables".toList [new "python3.6", new "python3.7", new "python3.8", new "python3.9"],
   .group .all "packages".toList [new "regex>=2018.11.22", new "jinja2>=2.11", new "lxml>=4.3.0",
     new "python-slugify>=2.0.1", new "pdfCropMargins>=0.1.4", new "click>=7.0", new "tornado>=6.1", new "pygments >=2.6",
     new "diskcache>=4.1", new "pathvalidate>=2.2"]]

/-- `image_deps` (`software_dependencies.py:16-19`). -/
def imageDeps : List Dep :=
  [.group .optional "executables".toList [new "asy", new "convert", new "pdf2svg", new "pdf-crop-margins", new "rsvg-convert"]]

/-- `pdf_deps` (`software_dependencies.py:21-34`). -/
def pdfDeps : List Dep :=
  [.group .all "executables".toList
     [.group .any "compilers".toList [new "pdflatex", new "xelatex", new "lualatex"],
      .group .any "package_managers".toList [new "kpsewhich"]],
   .group .all "packages".toList [new "graphicx", new "caption", new "amsmath", new "mathtools", new "bm", new "easylist",
     new "fancyvrb", new "hyperref", new "enumitem", new "geometry", new "xcolor"],
   .group .optional "fonts".toList [new "ecrm1200", new "tcrm1200"],
   .group .optional "classes".toList [new "article", new "report", new "tufte-book"]]

end Verif.Checkers
