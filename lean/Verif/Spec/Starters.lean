import Verif.Model.Starters

/-!
# Specification of new projects
-/

namespace Verif.Starters

open Verif

/-- A disk has each path once, under directories, with names that are not empty, not the dot and have no slash. -/
structure Sound (d : Disk) : Prop where
  once : d.keys.Nodup
  top : d.get? [] = none
  parents : ∀ p x, p ≠ [] → d.get? (p ++ [x]) ≠ none → d.get? p = some .dir
  names : ∀ p, d.get? p ≠ none → ∀ n ∈ p, n ≠ [] ∧ n ≠ ['.'] ∧ '/' ∉ n

/-- The starter at `root` has the file `rel` with the text `s` for new projects: any file but descriptions. -/
def Supplies (d : Disk) (root rel : Loc) (s : Str) : Prop :=
  rel ≠ [] ∧ d.get? (root ++ rel) = some (.file s) ∧ rel.getLast? ≠ some "description.yaml".toList

/-- A directory without anything in it. -/
def EmptyDir (d : Disk) (p : Loc) : Prop := (p = [] ∨ d.get? p = some .dir) ∧ ∀ x, d.get? (p ++ [x]) = none

/-- Nothing is in the way of a project in the directory `out`. -/
structure Room (d : Disk) (root out : Loc) : Prop where
  above : ∀ q, q <+: out → ∀ t, d.get? q ≠ some (.file t)
  dirs : ∀ rel s, Supplies d root rel s → ∀ q, q <+: rel → q ≠ rel → ∀ t, d.get? (out ++ q) ≠ some (.file t)
  files : ∀ rel s, Supplies d root rel s → d.get? (out ++ rel) ≠ some .dir
  apart : ∀ rel s rel' s', Supplies d root rel s → Supplies d root rel' s' → out ++ rel ≠ root ++ rel'

/-- The disk `d'` has the files of the starter in `out`, and is else like `d`, with new directories only on the way to these files. -/
structure NewProject (d d' : Disk) (root out : Loc) : Prop where
  files : ∀ rel s, Supplies d root rel s → d'.get? (out ++ rel) = some (.file s)
  rest : ∀ p, (∀ rel s, Supplies d root rel s → p ≠ out ++ rel) →
    d'.get? p = d.get? p ∨
    (d.get? p = none ∧ d'.get? p = some .dir ∧ ∃ rel s, Supplies d root rel s ∧ p <+: out ++ rel)

/-- The order of files: those with fewer directories first, then by their names. -/
def Before (a b : Loc) : Prop := a.length < b.length ∨ (a.length = b.length ∧ a ≤ b)

/-- The description of a starter: the file `template/starters/name/description.yaml` in the directory of templates, where the template and
the name can have several parts. -/
structure Describes (d : Disk) (templates rel template name : Loc) (text : Str) : Prop where
  path : rel = template ++ ["starters".toList] ++ name ++ ["description.yaml".toList]
  file : d.get? (templates ++ rel) = some (.file text)
  inTemplate : "starters".toList ∉ template ∧ "description.yaml".toList ∉ template
  inName : "starters".toList ∉ name ∧ "description.yaml".toList ∉ name

/-- All the descriptions among the templates are in their places, and have an entry `description`. -/
def AllDescribe (parse : Str → Dict Str Str) (d : Disk) (templates : Loc) : Prop :=
  ∀ rel, d.get? (templates ++ rel) ≠ none → rel.getLast? = some "description.yaml".toList →
    ∃ template name text, Describes d templates rel template name text ∧ "description".toList ∈ (parse text).keys

/-- No template is in the directory of another one. -/
def Flat (d : Disk) (templates : Loc) : Prop :=
  ∀ rel t n text rel' t' n' text', Describes d templates rel t n text → Describes d templates rel' t' n' text' → t <+: t' → t = t'

/-- The entries of a starter are those of its description, the name of its template and the description without spaces around it. -/
def EntriesOf (parse : Str → Dict Str Str) (strip : Str → Str) (template : Loc) (text : Str) (entries : Dict Str Str) : Prop :=
  ∀ k, entries.get? k = if k = "description".toList then ((parse text).get? k).map strip
    else if k = "template".toList then some (['/'].intercalate template) else (parse text).get? k

/-- The name a starter has on the command line. -/
def CalledAs (template name : Loc) (called : Str) : Prop := called = ['/'].intercalate (template ++ name)

/-- `line` is the first line of a text, where `brk` are the characters that end lines. -/
def FirstLine (brk : Char → Bool) (text line : Str) : Prop :=
  ∃ rest, text = line ++ rest ∧ (∀ c ∈ line, brk c = false) ∧ ∀ c, rest.head? = some c → brk c = true

end Verif.Starters
