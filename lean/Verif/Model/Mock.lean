import Verif.Model.Paths

/-!
# Model of the names of rendered files

Models `generate_mock_parameters` of `/repo/src/disseminate/builders/utils.py` and the output path of `JinjaRender`
(`/repo/src/disseminate/builders/jinja_render.py`).
-/

namespace Verif.Mock

open Verif Verif.Utils Verif.Paths

/-- The subpath of the first parameter that has one (`builders/utils.py:54-64`); an untracked path has the subpath `None`, which has
no `with_suffix`. -/
def firstSub : List PyPath → Option (Except PathError Path)
  | [] => none
  | .plain _ :: l => firstSub l
  | .source s :: _ => some (withSuffix s.sub [])
  | .target t :: _ => some (withSuffix t.sub [])
  | .untracked _ :: _ => some (.error .type)

/-- `generate_mock_parameters` (`builders/utils.py:21-90`). `paths` are those of the parameters that are paths, `src` is the subpath of
the document of the context, and `hash` is the text of 12 characters for the parameters, empty without `gen_hash`. The arguments
`project_root` and `subpath` are not given by any caller. -/
def generateMock (root : Path) (paths : List PyPath) (src : Option Path) (hash : Str) (ext : Option Str) : Except PathError SourcePath := do
  let sub : Option Path ← match firstSub paths with
    | some r => r.map some
    | none => match src with
      | some s => (withSuffix s []).map some
      | none => .ok none
  let filename := parse (join ['_'] ([(sub.map name).getD [], hash].filter (· ≠ [])))
  let filename ← match ext with
    | some e => if e = [] then .ok filename else withSuffix filename e
    | none => .ok filename
  match sub with
  | some s => mkSource (toStr root) (toStr (div (parent s) filename))
  | none => mkSource (toStr root) (toStr filename)

/-- `JinjaRender.outfilepath` (`jinja_render.py:194-221`), without the creation of directories. -/
def renderOut (env : Env) (root : Path) (paths : List PyPath) (src : Option Path) (hash : Str) (renderExt : Str) (target : Option Str)
    (useCache useMedia : Bool) : Except PathError (Option TargetPath) := do
  let mock ← generateMock root paths src hash (some ".render".toList)
  generateOut env [.path (.source mock)] target none (some renderExt) useCache useMedia

end Verif.Mock
