import Verif.Model.Jinja
import Verif.Spec.Decider
import Verif.Spec.Paths

/-! # Specification vocabulary for rendered files -/

namespace Verif.Jinja

open Verif Verif.Decider
open Verif.CopyFile (Param World)
open Verif.Paths (Path parse toStr)

/-- From the template `t` one gets to the template `u` by following references. -/
inductive Reaches (ld : Loader) (t : Tpl) : Tpl → Prop
  | refl : Reaches ld t t
  | step (u v : Tpl) (n : Str) : Reaches ld t u → some n ∈ u.refs → ld.load n = some v → Reaches ld t v

/-- The same with at least one reference. -/
def Follows (ld : Loader) (t v : Tpl) : Prop := ∃ u n, Reaches ld t u ∧ some n ∈ u.refs ∧ ld.load n = some v

/-- Every template that is reached can be loaded, and no reference is computed. -/
def Static (ld : Loader) (t : Tpl) : Prop := ∀ u, Reaches ld t u → ∀ r ∈ u.refs, ∃ n v, r = some n ∧ ld.load n = some v

/-- Every chain of references from a template, by loading, has fewer than `d` references. -/
def Height (ld : Loader) : Tpl → Nat → Prop
  | _, 0 => False
  | t, d + 1 => ∀ n v, some n ∈ t.refs → ld.load n = some v → Height ld v d

/-- The template of a context: the first of three names for which there is one. -/
def Chosen (ld : Loader) (names : List Str) (t : Tpl) : Prop :=
  ∃ pre n post, names = pre ++ n :: post ∧ (∀ m ∈ pre, ld.load m = none) ∧ ld.load n = some t

/-- What a renderer for the template `t` is given and finds: what it was given; the files of the templates; and for a template in
`a/b/c.x` the file `a/context.txt`, if there is one. -/
inductive Basic (ld : Loader) (given : List Param) (t : Tpl) : Param → Prop
  | given (x : Param) : x ∈ given → Basic ld given t x
  | template (u : Tpl) : Reaches ld t u → Basic ld given t (.path (toStr u.file))
  | context (u : Tpl) (p : Path) : Reaches ld t u → p = ⟨u.file.abs, u.file.parts.dropLast.dropLast ++ ["context.txt".toList]⟩ →
      ld.isFile p = true → Basic ld given t (.path (toStr p))

/-- What it watches: these, what the scanner finds in them, and the hashes of the tags of the context. -/
inductive Watched (e : Env) (given : List Param) (ctx : Dict Str Value) (t : Tpl) : Param → Prop
  | basic (x : Param) : Basic e.loader given t x → Watched e given ctx t x
  | scanned (x y : Param) (l : List Param) : Basic e.loader given t x → e.scan x = .ok l → y ∈ l → Watched e given ctx t y
  | hash (k h content : Str) : (k, Value.tag (some h) content) ∈ ctx → Watched e given ctx t (.text h)

/-- The names for the template in the path `d/n`, where `n` has the stem `st`, and for the extension `.x`. -/
def namesFor (d : Path) (n st x : Str) : List Path :=
  [⟨d.abs, d.parts ++ [n, x, "template.".toList ++ x]⟩, ⟨d.abs, d.parts ++ [st ++ '.' :: x]⟩, ⟨d.abs, d.parts ++ [n]⟩]

/-- A parameter as the decider takes it. -/
def input (enc : Str → Bytes) : Param → Item
  | .path p => .path p
  | .text s => .other (enc s)
  | .other b => .other b

/-- `is` is what the decider is asked about for a renderer: what it watches, each once, and its action. -/
def Inputs (enc : Str → Bytes) (e : Env) (r : Renderer) (is : List Item) : Prop :=
  ∃ ctx t, ∃ l : List Param, r.context = some ctx ∧ template e.loader ctx r.ext = .ok t ∧ l.Nodup ∧ (∀ x, x ∈ l ↔ Watched e r.given ctx t x) ∧
    is = l.map (input enc) ++ [.other (enc "render".toList)]

/-- `b` is the rendered text: that of the template for the context, as they are now. -/
def Rendered (e : Env) (r : Renderer) (b : Bytes) : Prop :=
  ∃ ctx t, r.context = some ctx ∧ template e.loader ctx r.ext = .ok t ∧ b = e.render t ctx

/-- The rendered text is determined by what is watched: a renderer that was run before with the same contents of what it watches
rendered the same text. No other builder has recorded these contents, and rendered files are no pdfs. -/
structure Determined (c : Cfg) (enc : Str → Bytes) (w0 : World) (ops : List Op) (e : Env) (r : Renderer) : Prop where
  same : ∀ pre e' r' post is is' b b', ops = pre ++ .update e' r' :: post → Inputs enc e r is → Inputs enc e' r' is' →
    SameContents c (run c enc w0 ops).fs is (run c enc w0 (pre ++ [.update e' r'])).fs is' → Rendered e r b → Rendered e' r' b' → b = b'
  other : ∀ pre is' o post is, ops = pre ++ .other is' o true :: post → Inputs enc e r is →
    ¬ SameContents c (run c enc w0 ops).fs is (run c enc w0 pre).fs is'
  text : c.isPdf r.target = false ∧ ∀ e' r', Op.update e' r' ∈ ops → c.isPdf r'.target = false

/-- The inputs and the output of an event that may be recorded. -/
inductive Decides (enc : Str → Bytes) : Op → List Item → Item → Prop
  | update (e : Env) (r : Renderer) (is : List Item) : Inputs enc e r is → Decides enc (.update e r) is (.path r.target)
  | other (is : List Item) (o : Item) : Decides enc (.other is o true) is o

/-- The hash does not collide on what is watched now and on what was built before. -/
def NoClash (c : Cfg) (enc : Str → Bytes) (w0 : World) (ops : List Op) (e : Env) (r : Renderer) : Prop :=
  ∀ pre op post is is' o, ops = pre ++ op :: post → Inputs enc e r is → Decides enc op is' o →
    Apart c (run c enc w0 ops).fs is (run c enc w0 (pre ++ [op])).fs is' ∧
    Apart c (run c enc w0 ops).fs [.path r.target] (run c enc w0 (pre ++ [op])).fs [o]

/-- What is not watched: an entry that is a text, like the title, and the content of a tag with the same hash, as the hash is made
before macros are replaced. -/
inductive Unwatched : Value → Value → Prop
  | text (s s' : Str) : Unwatched (.text s) (.text s')
  | tag (h : Option Str) (s s' : Str) : Unwatched (.tag h s) (.tag h s')

end Verif.Jinja
