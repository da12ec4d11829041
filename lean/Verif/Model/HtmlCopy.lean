import Verif.Model.CopyFile
import Verif.Model.Rewrite
import Verif.Model.Scanner
import Verif.Model.Targets

/-!
# Model of the copies that an html target makes

Models `/repo/src/disseminate/builders/target_builders/html_builder.py`, with the scan of `Model/Scanner`, the copies of
`Model/CopyFile` and the builders of `Model/Targets`. The files of the templates are given (`Model/Jinja`).
-/

namespace Verif.HtmlCopy

open Verif Verif.Paths
open Verif.Scanner (Files scan)
open Verif.Decider (Cfg Bytes)
open Verif.CopyFile (World)

/-- `ext_wildcards` (`html_builder.py:17`, `settings.py:250`), without the asterisk. -/
def wildcards : List Str := [".css".toList, ".svg".toList, ".png".toList]

/-- `infilepaths` of the render builder (`jinja_render.py:158-188`, `builders/builder.py:373-376`), for the files of its templates
and contexts. Paths are equal if their locations are. -/
def infilepaths (sp : Char → Bool) (files : Files) (templates : List SourcePath) : Except Scanner.Err (List SourcePath) :=
  match scan sp files true (templates.map .source) with
  | .error e => .error e
  | .ok found => .ok (Lists.uniq SourcePath.full (templates ++ found))

/-- A builder for a copy: the file, and where it goes. -/
structure Copy where
  file : SourcePath
  out : TargetPath
deriving Repr, DecidableEq

/-- The copies for files (`html_builder.py:31-52`). -/
def copiesOf (root : Path) (target : Str) : List SourcePath → Except PathError (List Copy)
  | [] => .ok []
  | p :: ps =>
    match mkTarget (toStr root) target (toStr p.sub) with
    | .error e => .error e
    | .ok out =>
      match copiesOf root target ps with
      | .error e => .error e
      | .ok cs => .ok (⟨p, out⟩ :: cs)

/-- `HtmlBuilder.__init__` (`html_builder.py:19-55`), and that of `XHtmlBuilder`, which differs in the extension: the copies. The
order of the wildcards, which are a set, does not matter. -/
def copies (env : Env) (b : Targets.Builder) (infiles : List SourcePath) : Except PathError (List Copy) :=
  copiesOf (if b.cache then env.cachePath else env.targetRoot) b.ext
    (wildcards.flatMap fun w => infiles.filter fun p => w.isSuffixOf (name p.full))

/-- The copies are made by a `ParallelBuilder` (`composite_builder.py:66-103`): each is built if it is ready. -/
def runCopies (c : Cfg) (enc : Str → Bytes) (w : World) (cs : List Copy) : World :=
  CopyFile.run c enc w (cs.map fun x => .copy [.path (toStr x.file.full)] (toStr x.out.full))

end Verif.HtmlCopy
