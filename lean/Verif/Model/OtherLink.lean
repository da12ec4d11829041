import Verif.Model.Targets
import Verif.Model.Links

/-!
# Model of links to the source and to other targets of a document

Models `OtherLink`, `Srclink`, `Txtlink`, `Texlink`, `Pdflink` and `Epublink` of
`/repo/src/disseminate/tags/navigation.py`, with `escape` of `markupsafe` and `os.path.relpath`.

Simplifications: of a context only the targets, the builders, the source path and those of the root document are kept; the
result is text, without the mark that it is escaped.
-/

namespace Verif.OtherLink

open Verif Verif.Paths Verif.Targets

/-- The tags: `Srclink`, the tags with an `other_target` (`Txtlink`, `Texlink`, `Pdflink`), and `Epublink`
(`tags/navigation.py:260-300`). -/
inductive Kind
  | src
  | target (t : Str)
  | epub
deriving Repr, DecidableEq

/-- The formats of a tag: the methods `default_fmt`, `tex_fmt`, `html_fmt` and `xhtml_fmt` (`tags/navigation.py:247-257`). -/
inductive Format
  | default | tex | html | xhtml
deriving Repr, DecidableEq

/-- Exceptions: `TargetNotFound` and `NotImplementedError`. -/
inductive Err
  | targetNotFound | notImplemented
deriving Repr, DecidableEq

/-- The targets of a context and its builders. -/
structure Targeted where
  targets : List Str
  builders : Builders

/-- The context of a tag: that of a document, its entry `src_filepath`, and the context of its root document. -/
structure Ctx where
  own : Targeted
  src : Option SourcePath
  root : Option Targeted

/-- `markupsafe.escape`, one character. -/
def escapeChar (c : Char) : Str :=
  if c = '&' then "&amp;".toList
  else if c = '>' then "&gt;".toList
  else if c = '<' then "&lt;".toList
  else if c = '\'' then "&#39;".toList
  else if c = '"' then "&#34;".toList
  else [c]

/-- `markupsafe.escape`. -/
def escape (s : Str) : Str := s.flatMap escapeChar

/-- The file of a listed target (`tags/navigation.py:206-226`, `:297-298`). -/
def listedFile (c : Targeted) (t : Str) : Except Err (Option Path) :=
  if t ∈ c.targets then
    match targetFilepath c.builders t with
    | none => .error .targetNotFound
    | some p => .ok (some p.full)
  else .ok none

/-- `this_filepath` (`tags/navigation.py:206-214`). -/
def thisFile (ctx : Option Ctx) (t : Str) : Except Err (Option Path) :=
  match ctx with
  | none => .ok none
  | some c => listedFile c.own t

/-- `other_filepath` (`tags/navigation.py:216-226`, `:264-267`, `:293-300`). -/
def otherFile (ctx : Option Ctx) (k : Kind) : Except Err (Option Path) :=
  match ctx with
  | none => .ok none
  | some c =>
    match k with
    | .target t => listedFile c.own t
    | .src => .ok (c.src.map SourcePath.full)
    | .epub =>
      match c.root with
      | none => .ok none
      | some r => listedFile r ".epub".toList

/-- `other_relpath` (`tags/navigation.py:228-245`); `cwd` is the current directory. -/
def otherRelpath (cwd : List Str) (ctx : Option Ctx) (k : Kind) (this : Str) : Except Err Str :=
  match thisFile ctx this with
  | .error e => .error e
  | .ok this =>
    match otherFile ctx k with
    | .error e => .error e
    | .ok other =>
      match this, other with
      | some this, some other =>
        if this = other then .ok [] else .ok (escape (Links.relpath cwd other (parent this)))
      | _, _ => .ok []

/-- `default_fmt`, `tex_fmt`, `html_fmt` and `xhtml_fmt` (`tags/navigation.py:247-257`). -/
def format (cwd : List Str) (ctx : Option Ctx) (k : Kind) : Format → Except Err Str
  | .default => .ok []
  | .tex => otherRelpath cwd ctx k ".tex".toList
  | .html => otherRelpath cwd ctx k ".html".toList
  | .xhtml => .error .notImplemented

end Verif.OtherLink
