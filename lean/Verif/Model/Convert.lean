import Verif.Model.Command

/-!
# Model of the conversions of images

Models the constructors of `Pdf2SvgCropScale` (`/repo/src/disseminate/builders/pdf2svg.py`), of the builders of
`/repo/src/disseminate/builders/asy_builders.py` and of `SvgRender` (`/repo/src/disseminate/builders/svgrender.py`): which steps a
conversion has, in which order, and with which options. How the steps hand on files is in `Model/Chain`, the commands they run are in
`Model/Command`.

Simplification: the converters are those that are available in the code, `Pdf2SvgCropScale` for svg files of pdf files, and for the
pdf files of tex files the one that is given.
-/

namespace Verif.Convert

open Verif Verif.Command

/-- The steps: to save a text to a file, to render a template, to run a program, and to copy a file. -/
inductive Step
  | save
  | render
  | run (t : Tool) (o : Options)
  | copy
deriving Repr, DecidableEq

/-- A step of a program, if its constructor raises no exception. -/
def make (c : Cfg) (t : Tool) (ps : List Param) : Except Err (List Step) :=
  match options c t (Lists.uniq id ps) with
  | .error e => .error e
  | .ok o => .ok [.run t o]

/-- A step that there is only with a value. -/
def makeIf (c : Cfg) (t : Tool) (ps : List Param) (v : Option Value) : Except Err (List Step) :=
  match v with
  | none => .ok []
  | some _ => make c t ps

/-- Steps one after the other. -/
def both (a b : Except Err (List Step)) : Except Err (List Step) :=
  match a with
  | .error e => .error e
  | .ok l =>
    match b with
    | .error e => .error e
    | .ok m => .ok (l ++ m)

/-- The copy at the end of a sequential builder (`sequential_builder.py:52-54`). -/
def closed (a : Except Err (List Step)) : Except Err (List Step) := both a (.ok [.copy])

/-- `Pdf2SvgCropScale.__init__` (`pdf2svg.py:51-81`). Without parameters, `get_parameter` asks the builder for its own, which are `None`
at this time, so that `list(None)` raises a `TypeError` (`builder.py:293,341`). `Pdf2svg` is not given the parameters. -/
def pdfToSvg (c : Cfg) (ps : List Param) : Except Err (List Step) :=
  if ps = [] then .error .typeError
  else
    let crop := match getParameter "crop".toList ps with
      | some v => some v
      | none => getParameter "crop_percentage".toList ps
    closed (both (makeIf c .pdfcrop ps crop) (both (make c .pdf2svg []) (makeIf c .scalesvg ps (getParameter "scale".toList ps))))

/-- `Asy2svg.__init__` (`asy_builders.py:58-75`). The parameters are in `kwargs`. -/
def asyToSvg (c : Cfg) (ps : List Param) : Except Err (List Step) := closed (both (make c .asy ps) (pdfToSvg c ps))

/-- `SaveAsyPdf.__init__` (`asy_builders.py:30-45`). -/
def saveAsyPdf (c : Cfg) (ps : List Param) : Except Err (List Step) := closed (both (.ok [.save]) (make c .asy ps))

/-- `SaveAsySvg.__init__` (`asy_builders.py:86-101`). -/
def saveAsySvg (c : Cfg) (ps : List Param) : Except Err (List Step) := closed (both (.ok [.save]) (asyToSvg c ps))

/-- `SvgRender.__init__` (`svgrender.py:17-41`) with `PdfRender.__init__` (`pdfrender.py:17-45`) for a context. The parameters are those with the
ones of the rendered file. -/
def svgRender (c : Cfg) (latex : Tool) (ps : List Param) : Except Err (List Step) :=
  closed (both (closed (both (.ok [.render]) (make c latex []))) (pdfToSvg c ps))

end Verif.Convert
