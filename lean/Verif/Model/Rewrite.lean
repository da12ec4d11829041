import Verif.Model.Links

/-!
# Model of the filter `rewrite_path` for templates

Models `/repo/src/disseminate/builders/jinja_render.py:33-66`, with `find_file` of `Model/Paths` and `get_url` of `Model/Links`.
-/

namespace Verif.Rewrite

open Verif Verif.Paths Verif.Links

/-- The exceptions: an `OSError` of the file system, and those of `get_url`. -/
inductive Err
  | os
  | url (e : Links.Err)
deriving Repr, DecidableEq

/-- The paths that are searched (`jinja_render.py:53-55`). `outfilepath.parent` is made by `pathlib` and has lost its parts:
`find_file` puts a subpath into it as `TargetPath(None, None, subpath)`, and the text of `None` is a name
(`paths/utils.py:158-160`, `paths/paths.py:136-142`). -/
def searched (out : TargetPath) : List PyPath :=
  [.target ⟨parse "None".toList, parse "None".toList, ⟨false, []⟩⟩, .target ⟨out.root, out.target, ⟨false, []⟩⟩]

/-- `rewrite_path` (`jinja_render.py:33-66`). A found path that is no `TargetPath` has no `get_url`. -/
def rewritePath (sp brk : Char → Bool) (isFile : Path → Except PathError Bool) (cwd : List Str) (ctx : Ctx) (target : Str)
    (out : TargetPath) (stub : Str) : Except Err Str :=
  let stub := strip (· = '/') stub
  match findFile sp brk isFile (.text stub) (searched out) true with
  | .error .notFound => .ok stub
  | .error _ => .error .os
  | .ok (some (.target file)) =>
    match getUrl cwd file (some ctx) (some target) with
    | .ok link => .ok link
    | .error e => .error (.url e)
  | .ok (some _) => .error (.url .attribute)
  | .ok none => .ok stub -- never, `find_file` raises

end Verif.Rewrite
