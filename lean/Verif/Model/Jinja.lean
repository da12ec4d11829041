import Verif.Model.CopyFile
import Verif.Model.Paths
import Verif.Model.Starters

/-!
# Model of `builders/jinja_render.py`

The renderer: which template it takes, what it depends on, and when it renders again. The language of the templates is a parameter:
`render` gives the text for a template and a context, and a template comes with the names it refers to. Simplifications: errors while
rendering are left out, and the output path is given (`generate_outfilepath` is in `Model/Mock`).
-/

namespace Verif.Jinja

open Verif Verif.Decider
open Verif.CopyFile (Param World write record)
open Verif.Paths (Path parse toStr div parent withSuffix)

/-- A template: its name, its file, and what `jinja2.meta.find_referenced_templates` gives: names, or `none` for a reference that is
computed. -/
structure Tpl where
  name : Str
  file : Path
  refs : List (Option Str)
deriving Repr, DecidableEq

/-- The exceptions. -/
inductive Err
  | notFound | recursion | dynamic | value | assertion
deriving Repr, DecidableEq

/-- A value of a context: a text, a tag with its hash (`tags/receivers/hash.py:9-15`), or anything else. -/
inductive Value
  | text (s : Str)
  | tag (hash : Option Str) (content : Str)
  | other
deriving Repr, DecidableEq

/-- The loader of templates and the files on disk. -/
structure Loader where
  load : Str → Option Tpl
  isFile : Path → Bool

/-- The names that are tried (`jinja_render.py:133-150`). -/
def candidates (template : Str) (ext : Str) : Except Err (List Str) :=
  let p := parse template
  let target := Paths.stripDots ext
  match withSuffix (div (div p (parse target)) (parse "template".toList)) ('.' :: target), withSuffix p ('.' :: target) with
  | .ok p1, .ok p2 => .ok [toStr p1, toStr p2, toStr p]
  | _, _ => .error .value

/-- `get_or_select_template` (`jinja_render.py:155`): the first that is found. -/
def select (ld : Loader) : List Str → Except Err Tpl
  | [] => .error .notFound
  | n :: ns => match ld.load n with
    | some t => .ok t
    | none => select ld ns

/-- `context.get('template', 'default')` (`jinja_render.py:133`). The entry is a text. -/
def templateName (ctx : Dict Str Value) : Str :=
  match ctx.get? "template".toList with
  | some (.text s) => s
  | _ => "default".toList

/-- `JinjaRender.template` (`jinja_render.py:129-156`). -/
def template (ld : Loader) (ctx : Dict Str Value) (ext : Str) : Except Err Tpl :=
  match candidates (templateName ctx) ext with
  | .error e => .error e
  | .ok ns => select ld ns

/-- The parents of a template, loaded (`jinja_render.py:319-325`). -/
def parents (ld : Loader) : List (Option Str) → Except Err (List Tpl)
  | [] => .ok []
  | none :: _ => .error .dynamic
  | some n :: rs => match ld.load n with
    | none => .error .notFound
    | some t => match parents ld rs with
      | .error e => .error e
      | .ok ts => .ok (t :: ts)

/-- `template_filepaths` (`jinja_render.py:282-331`), with the depth of the recursion that Python allows. -/
def templateFiles (ld : Loader) : Nat → Tpl → Except Err (List Path)
  | 0, _ => .error .recursion
  | n + 1, t => match parents ld t.refs with
    | .error e => .error e
    | .ok ts => match ts.mapM (templateFiles ld n) with
      | .error e => .error e
      | .ok fs => .ok (t.file :: fs.flatten)

/-- `context_filepaths` (`jinja_render.py:334-362`). -/
def contextFiles (ld : Loader) (files : List Path) : List Path :=
  files.foldl (fun found f =>
    let p := div (parent (parent f)) (parse "context.txt".toList)
    if ld.isFile p ∧ p ∉ found then found ++ [p] else found) []

/-- The hashes of the values (`jinja_render.py:185-186`). -/
def hashes (ctx : Dict Str Value) : List Str :=
  Starters.sortWith (fun a b => decide (a ≤ b)) (ctx.filterMap fun kv => match kv.2 with
    | .tag h _ => h
    | _ => none)

/-- A renderer (`jinja_render.py:104-112`): the parameters given, the context (a weak reference that may be gone), the extension, the
output, and the parameters from signals (`builders/builder.py:348-365`), here labels, which it does not use. -/
structure Renderer where
  given : List Param
  context : Option (Dict Str Value)
  ext : Str
  target : Str
  fromSignals : List Param
deriving Repr, DecidableEq

/-- The world of a renderer: the loader, what the scanner finds for one parameter (`scanners/scanner.py:60-114`, in
`Model/Scanner`), the depth of recursion, and the result of rendering. -/
structure Env where
  loader : Loader
  scan : Param → Except Err (List Param)
  depth : Nat
  render : Tpl → Dict Str Value → Bytes

/-- `env.scanner.scan(parameters)` (`scanners/scanner.py:41-114`). -/
def scanAll (scan : Param → Except Err (List Param)) : List Param → Except Err (List Param)
  | [] => .ok []
  | p :: ps => match scan p with
    | .error err => .error err
    | .ok l => match scanAll scan ps with
      | .error err => .error err
      | .ok ls => .ok (l ++ ls)

/-- `JinjaRender.parameters` (`jinja_render.py:158-188`). -/
def parameters (e : Env) (r : Renderer) : Except Err (List Param) :=
  match r.context with
  | none => .ok (Lists.uniq id r.given)
  | some ctx => match template e.loader ctx r.ext with
    | .error err => .error err
    | .ok t => match templateFiles e.loader e.depth t with
      | .error err => .error err
      | .ok files =>
        let ps := r.given ++ files.map (fun p => .path (toStr p)) ++ (contextFiles e.loader files).map fun p => .path (toStr p)
        match scanAll e.scan ps with
        | .error err => .error err
        | .ok found => .ok (Lists.uniq id (ps ++ found ++ (hashes ctx).map .text))

/-- `action` (`jinja_render.py:93`). -/
def renderAction : Str := "render".toList

/-- `status` of a renderer without a process (`builders/builder.py:213-275`), for one whose parameters were not found complete
before. -/
def status (c : Cfg) (enc : Str → Bytes) (e : Env) (w : World) (r : Renderer) : Except Err Builder.Status :=
  match parameters e r with
  | .error err => .error err
  | .ok ps => match Builder.Leaf.new.statusIn c w.fs w.db (ps.map (Param.item enc)) (enc renderAction) r.target with
    | some (.ok st, _, _) => .ok st
    | _ => .error .assertion

/-- `JinjaRender.build` (`jinja_render.py:242-259`): the template is rendered in any case. -/
def build (c : Cfg) (enc : Str → Bytes) (e : Env) (w : World) (r : Renderer) : Except Err Builder.Status × World :=
  match r.context with
  | none => (.error .assertion, w) -- `context.get` of `None`
  | some ctx => match template e.loader ctx r.ext with
    | .error err => (.error err, w)
    | .ok t =>
      let w1 : World := { w with fs := write w.fs r.target (e.render t ctx) }
      match parameters e r with
      | .error err => (.error err, w1)
      | .ok ps =>
        let w2 := record c enc renderAction w1 ps r.target
        (status c enc e w2 r, w2)

/-- A target builder whose dependencies are done (`composite_builder.py:43-103`, `target_builder.py:163-174`): the renderer is built if
it is ready. -/
def update (c : Cfg) (enc : Str → Bytes) (e : Env) (w : World) (r : Renderer) : Except Err Builder.Status × World :=
  match status c enc e w r with
  | .ok .ready => build c enc e w r
  | st => (st, w)

/-- What happens: files change in any way, targets are built in any environment, and other builders ask and record. -/
inductive Op
  | files (fs : FS)
  | update (e : Env) (r : Renderer)
  | other (inputs : List Item) (output : Item) (reset : Bool)

def step (c : Cfg) (enc : Str → Bytes) (w : World) : Op → World
  | .files fs => { w with fs := fs }
  | .update e r => (update c enc e w r).2
  | .other is o reset => { w with db := ((c.buildNeeded w.fs w.db is o reset).map Prod.snd).getD w.db }

def run (c : Cfg) (enc : Str → Bytes) (w : World) (ops : List Op) : World := ops.foldl (step c enc) w

end Verif.Jinja
