import Verif.Model.Paths
import Verif.Model.Builder
import Verif.Model.Attributes
import Verif.Model.Targets

/-!
# Model of the files of images: `Img.add_file`, the receiver `add_file` and `add_build`

Models `/repo/src/disseminate/tags/img.py:55-156`, `/repo/src/disseminate/builders/target_builders/receivers.py:14-52` and the `add_build`
of `target_builder.py`, `pdf_builder.py` and `parallel_builder.py`.

Simplifications: `Model/Builder.findBuilderCls` has the choice of the class. The classes that are chosen do not append texts to
names (only `PdfCrop` and `ScaleSvg` do, which are parts of other builders). A builder without files gets the path of a rendered file, which
is in `Model/Mock`: here it is an error of its own. No dependencies are found by scanners (`Model/Scanner` has these). The search of files
does not depend on the directory of the process.
-/

namespace Verif.AddFile

open Verif Verif.Paths Verif.Builder

/-- A parameter of a build (`parallel_builder.py:22-24`): a path, a text, or a pair of a name and a value. -/
inductive Arg
  | path (p : PyPath)
  | text (s : Str)
  | pair (n v : Str)
deriving Repr, DecidableEq

/-- `settings.tracked_deps` (`settings.py:248-255`). -/
def trackedDeps : Dict Str (List Str) :=
  [(".html".toList, [".css".toList, ".svg".toList, ".png".toList]), (".xhtml".toList, [".css".toList, ".svg".toList, ".png".toList]),
   (".tex".toList, [".pdf".toList, ".png".toList]), (".css".toList, [".css".toList])]

/-- The exceptions: there is no target builder (`receivers.py:42-44`), the target builder has no parallel builder
(`target_builder.py:156-157`), no builder class is found (`builders/builder.py:545-548`), there is no copy builder (`:534`), errors of paths,
and no file among the parameters (see the simplifications). -/
inductive Err
  | assertion | attribute | noBuilder | keyError | path (e : PathError) | rendered
deriving Repr, DecidableEq

/-- What a file is searched for in: the class of spaces and of line ends, the files there are, and the entry `paths` of the context. -/
structure Search where
  sp : Char → Bool
  brk : Char → Bool
  isFile : Path → Except PathError Bool
  paths : List PyPath

/-- The argument of `find_file`. -/
def Arg.fileArg : Arg → FileArg
  | .path p => .path p
  | .text s => .text s
  | .pair _ _ => .other

/-- `[find_file(i, context, raise_error=False) or i for i in parameters]` (`parallel_builder.py:57-59`). -/
def found (c : Search) : List Arg → Except PathError (List Arg)
  | [] => .ok []
  | a :: l => match findFile c.sp c.brk c.isFile a.fileArg c.paths false with
    | .error e => .error e
    | .ok r => match found c l with
      | .error e => .error e
      | .ok l' => .ok ((r.map Arg.path).getD a :: l')

/-- The copy builder (`builders/copy.py:18-19`). -/
def isCopy (k : Cls) : Bool := k.inExt = ".*".toList ∧ k.outExt = ".*".toList

/-- `Copy.__init__` (`builders/copy.py:29-39`): texts are taken as paths. -/
def Arg.asPath : Arg → Arg
  | .text s => .path (.plain (parse s))
  | a => a

/-- A parameter, for `generate_outfilepath`. -/
def Arg.param : Arg → Param
  | .path p => .path p
  | _ => .other

/-- The extension of the input, if it isn't given (`parallel_builder.py:66-73`): the first text that starts with a period, or else that of
the first path. -/
def inExtOf (args : List Arg) : Option Str :=
  (args.filterMap (fun | .text s => if s.head? = some '.' then some s else none | _ => none) ++
    args.filterMap (fun | .path p => some (suffix p.full) | _ => none)).head?

/-- A builder that was added: its class, its parameters (as they are given to the constructor of `Builder`) and its output path. -/
structure Build where
  cls : Cls
  parameters : List Arg
  out : TargetPath
deriving Repr, DecidableEq

/-- `find_builder_cls` (`builders/builder.py:486-550`). No class has the input extension `None` and an output extension. -/
def chosen (clss : List Cls) (inExt : Option Str) (target : Str) : Found :=
  match inExt with
  | none => .nothing
  | some i => findBuilderCls trackedDeps clss i [] (some target)

/-- `ParallelBuilder.add_build` (`parallel_builder.py:15-95`), with the output path (`builders/builder.py:384-418`, `builders/copy.py:22-27`,
`sequential_builder.py:83-107`). -/
def addBuild (c : Search) (env : Env) (clss : List Cls) (useCache : Bool) (args : List Arg) (inExt : Option Str) (target : Str) :
    Except Err Build :=
  match found c args with
  | .error e => .error (.path e)
  | .ok args =>
    match chosen clss (inExt.or (inExtOf args)) target with
    | .nothing => .error .noBuilder
    | .keyError => .error .keyError
    | .cls k =>
      let args := if isCopy k then args.map Arg.asPath else args
      match generateOut env (args.map Arg.param) (some target) none (if isCopy k then none else some k.outExt) useCache true with
      | .error e => .error (.path e)
      | .ok none => .error .rendered
      | .ok (some out) => .ok ⟨k, args, out⟩

/-- A target builder: whether it uses the cache directory (`target_builder.py:101-103`), whether it has a parallel builder, and the builders
in that. -/
structure Target where
  useCache : Bool
  parallel : Bool
  builds : List Build
deriving Repr, DecidableEq

/-- The target builder that gets the build: the pdf builder gives it to the tex builder (`pdf_builder.py:63-66`). -/
def receiver (t : Str) : Str := if t = ".pdf".toList then ".tex".toList else t

/-- The receiver `add_file` (`receivers.py:14-52`, `target_builder.py:151-162`). -/
def addFile (c : Search) (env : Env) (clss : List Cls) (builders : Dict Str Target) (args : List Arg) (inExt : Option Str) (target : Str) :
    Except Err TargetPath × Dict Str Target :=
  let t := Targets.dot target
  match builders.get? t with
  | none => (.error .assertion, builders)
  | some _ => match builders.get? (receiver t) with
    | none => (.error .attribute, builders)
    | some b =>
      if b.parallel = false then (.error .attribute, builders)
      else match addBuild c env clss b.useCache args inExt t with
        | .error e => (.error e, builders)
        | .ok x => (.ok x.out, builders.set (receiver t) { b with builds := b.builds ++ [x] })

/-- `Img.content_as_filepath` for a text (`tags/img.py:78-82`). -/
def contentFile (c : Search) (s : Str) : Except PathError (Option PyPath) :=
  match findFiles c.sp c.brk c.isFile s c.paths with
  | .error e => .error e
  | .ok l => .ok l.head?

/-- The attributes of an image as parameters (`tags/img.py:136`, `attributes.py:139-149`). -/
def attrArgs (d : Attrs.ADict) : List Arg := (Attrs.toTuple d).map fun kv => match kv.2 with
  | some v => .pair kv.1 v
  | none => .text kv.1

/-- `Img.add_file` for an image whose content is a text (`tags/img.py:122-156`): `d` are the attributes for the target. Images have no
`in_ext` (`tags/img.py:47`). -/
def imgFile (c : Search) (env : Env) (clss : List Cls) (builders : Dict Str Target) (s : Str) (d : Attrs.ADict) (target : Str) :
    Except Err TargetPath × Dict Str Target :=
  match contentFile c s with
  | .error e => (.error (.path e), builders)
  | .ok none => addFile c env clss builders (.text s :: attrArgs d) none target
  | .ok (some p) => addFile c env clss builders (.path p :: attrArgs d) (some (suffix p.full)) target

end Verif.AddFile
