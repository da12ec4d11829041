import Verif.Model.Navigation
import Verif.Model.Paths
import Verif.Model.Lists
import Verif.Model.Validators

/-!
# Model of the commands of builders

Models how a builder makes the arguments of an external command: `CustomFormatter` and `run_cmd_args` of
`/repo/src/disseminate/builders/builder.py`, and the actions, options and arguments of `pdfcrop.py`, `pdf2svg.py`,
`asy_builders.py`, `scalesvg.py`, `latexmk.py`, `pdflatex.py` and `imagemagick.py` in the same directory.

Parameters of the model: `pathvalidate.sanitize_filepath` (a library), the characters that `str.split` takes as spaces, and the
texts that `int` and `float` read and write.
-/

namespace Verif.Command

open Verif Verif.Paths

structure Cfg where
  /-- `str(pathvalidate.sanitize_filepath(path, platform='auto'))`, of the text of a path. -/
  sanitize : Str → Str
  /-- `c.isspace()`. -/
  sp : Char → Bool
  /-- `int(s)`, without a value if it raises a `ValueError`. -/
  intOf : Str → Option Int
  /-- `int(x)` of the float with the text. Simplification: it is finite. -/
  trunc : Str → Int
  /-- `str(float(s))`, without a value if `float` raises a `ValueError`. -/
  floatOf : Str → Option Str
  /-- `str(float(n))`. -/
  floatInt : Int → Str

/-- The exceptions. -/
inductive Err
  | typeError
  | valueError
  | attributeError
  | indexError
deriving Repr, DecidableEq

/-- The value of a parameter with a name: an integer, a float (as the text `str(x)`; simplification: not zero), a text, a tuple of
integers, or something else. -/
inductive Value
  | int (n : Int)
  | float (s : Str)
  | str (s : Str)
  | tuple (l : List Int)
  | other
deriving Repr, DecidableEq

/-- A parameter of a builder (`builder.py:51-52`): a path, a pair of a name and a value, or a text. -/
inductive Param
  | file (p : Path)
  | pair (name : Str) (v : Value)
  | text (s : Str)
deriving Repr, DecidableEq

/-- The builders that run a command: `PdfCrop`, `Pdf2svg`, `Asy2pdf`, `ScaleSvg`, `Latexmk`, `Pdflatex` and `ImageMagick`. -/
inductive Tool
  | pdfcrop
  | pdf2svg
  | asy
  | scalesvg
  | latexmk
  | pdflatex
  | convert
deriving Repr, DecidableEq

/-- `action` (`pdfcrop.py:21`, `pdf2svg.py:13`, `asy_builders.py:12`, `scalesvg.py:21-22`, `latexmk.py:15-22`, `pdflatex.py:10-15`,
`imagemagick.py:10`). -/
def Tool.action : Tool → Str
  | .pdfcrop => "pdf-crop-margins -o {builder.outfilepath} {builder.infilepaths}".toList
  | .pdf2svg => "pdf2svg {builder.infilepaths} {builder.outfilepath}".toList
  | .asy => "asy -safe -f pdf -o {builder.outfilepath} {builder.infilepaths}".toList
  | .scalesvg => "rsvg-convert -f svg -o {builder.outfilepath} {builder.infilepaths}".toList
  | .latexmk => ("latexmk -pdf -norc -f -bibtex- -jobname={builder.jobname} -output-directory={builder.cache_path} " ++
      "{builder.infilepaths}").toList
  | .pdflatex => ("pdflatex -interaction=nonstopmode -halt-on-error -output-directory={builder.cache_path} " ++
      "-jobname={builder.jobname} {builder.infilepaths}").toList
  | .convert => "convert {builder.infilepaths} {builder.outfilepath}".toList

/-- What the constructors of the builders read from the parameters (`pdfcrop.py:30-31`, `pdf2svg.py:21`, `scalesvg.py:31`). -/
structure Options where
  crop : Validators.Setting := .unset
  offset : Validators.Setting := .unset
  page : Option Int := none
  scale : Str := []
deriving Repr, DecidableEq

/-- A builder: its parameters, the output path, and what its constructor has read. -/
structure Builder where
  tool : Tool
  parameters : List Param
  out : Path
  options : Options

/-- `get_parameter` (`builder.py:325-346`): the value of the first pair with that name. Simplification: of the pairs only. -/
def getParameter (name : Str) (ps : List Param) : Option Value :=
  (ps.filterMap fun
    | .pair n v => if n = name then some v else none
    | _ => none).head?

/-- A value as a crop or an offset. -/
def Value.setting : Value → Validators.Param
  | .int n => .int n
  | .float _ => .arg (.single 0)
  | .str s => .arg (.str s)
  | .tuple l => .arg (.items l)
  | .other => .arg .broken

/-- `bool(value)`. -/
def Value.truthy (v : Value) : Bool := v.setting.truthy

/-- `PdfCrop.__init__` (`pdfcrop.py:33-54`). -/
def cropOptions (ps : List Param) : Except Err Options :=
  let get := fun n => (getParameter n ps).map Value.setting
  match Validators.setting (Validators.orElse (get "crop".toList) (get "crop_percentage".toList)), Validators.setting (get "offset".toList) with
  | .ok c, .ok o => .ok { crop := c, offset := o }
  | .error .typeError, _ => .error .typeError
  | .error .valueError, _ => .error .valueError
  | _, .error .typeError => .error .typeError
  | _, .error .valueError => .error .valueError

/-- `Pdf2svg.__init__` (`pdf2svg.py:23-31`): a `TypeError` is caught, a `ValueError` is not. -/
def pageOptions (c : Cfg) (ps : List Param) : Except Err Options :=
  let page := match getParameter "page".toList ps with
    | some v => if v.truthy then some v else getParameter "page_no".toList ps
    | none => getParameter "page_no".toList ps
  match page with
  | some (.int n) => .ok { page := some n }
  | some (.str s) =>
    match c.intOf s with
    | some n => .ok { page := some n }
    | none => .error .valueError
  | some (.float s) => .ok { page := some (c.trunc s) }
  | _ => .ok {}

/-- `ScaleSvg.__init__` (`scalesvg.py:33-43`): without a number a `ValueError` is raised. -/
def scaleOptions (c : Cfg) (ps : List Param) : Except Err Options :=
  match getParameter "scale".toList ps with
  | some (.int n) => .ok { scale := c.floatInt n }
  | some (.float s) => .ok { scale := s }
  | some (.str s) =>
    match c.floatOf s with
    | some t => .ok { scale := t }
    | none => .error .valueError
  | _ => .error .valueError

/-- What the constructor of a builder reads. The builders without a constructor of their own read nothing. -/
def options (c : Cfg) (t : Tool) (ps : List Param) : Except Err Options :=
  match t with
  | .pdfcrop => cropOptions ps
  | .pdf2svg => pageOptions c ps
  | .scalesvg => scaleOptions c ps
  | _ => .ok {}

/-- `Tool(env, parameters, outfilepath)`: the constructors (`builder.py:139-159`) and, for the parameters, the getter
(`builder.py:289-297`). Simplifications: the output path is given, no dependencies are found by a scan, and no signals give
parameters (there are none for these builders). -/
def new (c : Cfg) (t : Tool) (ps : List Param) (out : Path) : Except Err Builder :=
  match options c t (Lists.uniq id ps) with
  | .ok o => .ok ⟨t, Lists.uniq id ps, out, o⟩
  | .error e => .error e

/-- `infilepaths` (`builder.py:373-376`). -/
def Builder.infilepaths (b : Builder) : List Path := b.parameters.filterMap fun | .file p => some p | _ => none

/-- A value of a field: one path, several, or a text. -/
inductive Field
  | path (p : Path)
  | paths (l : List Path)
  | str (s : Str)

/-- The attributes that fields name: those of `Builder` (`builder.py:373-422`), and `cache_path` and `jobname` of the builders of latex
(`latexmk.py:31-37`, `pdflatex.py:24-30`). Simplification: no other attributes are named. -/
def Builder.field (b : Builder) (name : Str) : Except Err Field :=
  if name = "builder.outfilepath".toList then .ok (.path b.out)
  else if name = "builder.infilepaths".toList then .ok (.paths b.infilepaths)
  else if b.tool = .latexmk ∨ b.tool = .pdflatex then
    if name = "builder.cache_path".toList then .ok (.path (parent b.out))
    else if name = "builder.jobname".toList then .ok (.str (stem b.out))
    else .error .attributeError
  else .error .attributeError

/-- `str(f).strip('-*`')` (`builder.py:39`). -/
def trim (s : Str) : Str := strip (fun ch => ch = '-' || ch = '*' || ch = '`') s

/-- `clean_field` of a path (`builder.py:34-39`). -/
def cleanPath (c : Cfg) (p : Path) : Str := trim (c.sanitize (toStr p))

/-- `CustomFormatter.get_field` (`builder.py:26-32`). -/
def Builder.getField (c : Cfg) (b : Builder) (name : Str) : Except Err Str :=
  match b.field name with
  | .error e => .error e
  | .ok (.path p) => .ok (cleanPath c p)
  | .ok (.paths l) => .ok (join " ".toList (l.map (cleanPath c)))
  | .ok (.str s) => .ok (trim s)

/-- `Formatter.format(text, builder=...)`: `cur` is the name of the field that is read. Simplification: without conversions, format
specifications and fields in fields, which the actions do not have. -/
def format (val : Str → Except Err Str) : Option Str → Str → Except Err Str
  | none, [] => .ok []
  | some _, [] => .error .valueError
  | none, '{' :: '{' :: s => (format val none s).map ('{' :: ·)
  | none, '}' :: '}' :: s => (format val none s).map ('}' :: ·)
  | none, ch :: s =>
    if ch = '{' then format val (some []) s
    else if ch = '}' then .error .valueError
    else (format val none s).map (ch :: ·)
  | some n, ch :: s =>
    if ch = '}' then
      match val n with
      | .error e => .error e
      | .ok v => (format val none s).map (v ++ ·)
    else format val (some (n ++ [ch])) s

/-- `Builder.run_cmd_args` (`builder.py:424-437`): `tuple(fmt_action.split())`. -/
def Builder.baseArgs (c : Cfg) (b : Builder) : Except Err (List Str) :=
  (format (b.getField c) none b.tool.action).map (Navigation.splitWords c.sp [])

/-- An argument: the number of the page is not made a text. -/
inductive Arg
  | str (s : Str)
  | int (n : Int)
deriving Repr, DecidableEq

/-- `run_cmd_args` of the builders (`pdfcrop.py:56-71`, `pdf2svg.py:33-37`, `scalesvg.py:45-48`; the others have that of `Builder`). -/
def Builder.runCmdArgs (c : Cfg) (b : Builder) : Except Err (List Arg) :=
  match b.baseArgs c with
  | .error e => .error e
  | .ok args =>
    match b.tool with
    | .pdfcrop =>
      match args with
      | [] => .error .indexError
      | prog :: args => .ok ((Validators.cropArgs b.options.crop b.options.offset prog args).map .str)
    | .scalesvg =>
      match args with
      | [] => .error .indexError
      | prog :: args => .ok ((prog :: "-z".toList :: b.options.scale :: args).map .str)
    | .pdf2svg =>
      match b.options.page with
      | some n => .ok (args.map .str ++ [.int n])
      | none => .ok (args.map .str)
    | _ => .ok (args.map .str)

/-- `" ".join(args)` needs texts only. -/
def texts : List Arg → Except Err (List Str)
  | [] => .ok []
  | .str s :: l => (texts l).map (s :: ·)
  | .int _ :: _ => .error .typeError

/-- `run_cmd` of a builder without a process (`builder.py:439-450`): the arguments of the process that is started. The text of the
arguments is made for the log in any case (`builder.py:445-446`). -/
def Builder.runCmd (c : Cfg) (b : Builder) : Except Err (List Str) :=
  match b.runCmdArgs c with
  | .error e => .error e
  | .ok args => texts args

end Verif.Command
