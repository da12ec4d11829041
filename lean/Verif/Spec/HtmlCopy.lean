import Verif.Model.HtmlCopy
import Verif.Spec.CopyFile
import Verif.Spec.Rewrite
import Verif.Spec.Scanner
import Verif.Spec.Targets

/-! # Specification of the files copied for a page -/

namespace Verif.HtmlCopy.Spec

open Verif Verif.Paths Verif.HtmlCopy
open Verif.Scanner (Files IsPage Names)
open Verif.Rewrite (Stub)
open Verif.Decider (Cfg Bytes)
open Verif.CopyFile (World)

/-- `p` is the file of a template: its root is its own directory. -/
def IsTemplate (p : SourcePath) : Prop := Good p.root ∧ ∃ n, IsName n ∧ p.sub = ⟨false, [n]⟩

/-- No directory of a template is in that of another. -/
def NotNested (templates : List SourcePath) : Prop :=
  ∀ p ∈ templates, ∀ q ∈ templates, p.root.abs = q.root.abs → p.root.parts <+: q.root.parts → p.root = q.root

/-- The names end with the extension of a stylesheet or an image. -/
def Tracked (names : List Str) : Prop :=
  ∃ n, names.getLast? = some n ∧ (".css".toList <:+ n ∨ ".svg".toList <:+ n ∨ ".png".toList <:+ n)

/-- The template `p` has a `link` or an `img` tag with the path `stub`, which is that of these names. -/
structure Linked (sp brk : Char → Bool) (files : Files) (p : SourcePath) (stub : Str) (names : List Str) : Prop where
  page : ∃ text ns, IsPage files (.source p) p.root ⟨false, []⟩ text ∧ Names sp text ns ∧ stub ∈ ns
  path : ∃ text, Stub sp brk stub text names
  kind : Tracked names

/-- The file with these names next to the template, and its place in the directory of the target `t` below `root`. -/
def copyOf (root : Path) (t : Str) (p : SourcePath) (names : List Str) : Copy :=
  ⟨⟨p.root, ⟨false, names⟩⟩, ⟨root, ⟨false, [t.tail]⟩, ⟨false, names⟩⟩⟩

/-- The location of a file, and that of its copy. -/
def Copy.src (x : Copy) : Path := ⟨x.file.root.abs, x.file.root.parts ++ x.file.sub.parts⟩
def Copy.dst (x : Copy) : Path := ⟨x.out.root.abs, x.out.root.parts ++ x.out.target.parts ++ x.out.sub.parts⟩

/-- No two copies go to the same place, and none goes to the place of a file that is copied. -/
def Separate (cs : List Copy) : Prop := (cs.map Copy.dst).Nodup ∧ ∀ x ∈ cs, ∀ y ∈ cs, Copy.dst x ≠ Copy.src y

/-- The copies as things that happen in a project. -/
def asOps (cs : List Copy) : List CopyFile.Op := cs.map fun x => .copy [.path (toStr (Copy.src x))] (toStr (Copy.dst x))

/-- The text has a `link` or an `img` tag with the name `n`. -/
def InTag (sp : Char → Bool) (text n : Str) : Prop :=
  ∃ tag key, ((tag = "<link".toList ∧ key = "href=".toList) ∨ (tag = "<img".toList ∧ key = "src=".toList)) ∧
    ∃ pre link post gap attrs opened q, text = pre ++ link ++ post ∧ Scanner.IsLink sp tag key gap attrs opened n q link

/-- The html or xhtml target `t` of the document `d` at `dir/stem.…` has the builder `b`, which was made when there were these files. Its
templates depend on `infiles`, and the builder has the copies `cs`. -/
structure Made (sp : Char → Bool) (env : Env) (d : Targets.Doc) (t : Str) (b : Targets.Builder) (files : Files)
    (templates infiles : List SourcePath) (cs : List Copy) : Prop where
  envOk : Targets.EnvOk env
  doc : ∃ dir stem, Targets.At d dir stem
  target : t = ".html".toList ∨ t = ".xhtml".toList
  builder : Targets.make env d t = .ok b
  own : ∀ p ∈ templates, IsTemplate p
  apart : NotNested templates
  depends : infilepaths sp files templates = .ok infiles
  copied : HtmlCopy.copies env b infiles = .ok cs

end Verif.HtmlCopy.Spec
