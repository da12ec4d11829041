import Verif.Spec.ContextTree
import Verif.Spec.Header
import Verif.Model.Template

/-!
# Specification of headers and templates
-/

namespace Verif.Template

open Verif Verif.Context Verif.Context.Spec Verif.Header.Spec Verif.Paths

/-- The value of a key. -/
def valueOf (d : List (Str × Str)) (k : Str) : Option Str := (d.find? fun kv => kv.1 = k).map Prod.snd

/-- The text begins with a header block. -/
def HasBlock (sp : Char → Bool) (s : Str) : Prop := ∃ b hd rest, s = b ++ rest ∧ IsBlock sp b hd

/-- `cut` takes the header block off the texts that begin with one, and gives the header and the rest. -/
def Cuts (sp : Char → Bool) (cut : Str → Str × Str) : Prop :=
  ∀ s, HasBlock sp s → ∃ b, s = b ++ (cut s).2 ∧ IsBlock sp b (cut s).1

/-- Some entry of the context has a header with this value for the key. -/
def InHeader (P : Py) (sp : Char → Bool) (cut : Str → Str × Str) (F : List (Str × Tree)) (k v : Str) : Prop :=
  ∃ e s, lookup F e = some (.atom (.str s)) ∧ HasBlock sp s ∧ valueOf (P.strToDict (cut s).1) k = some v

/-- `H` are the entries of the headers of a context. -/
def Headers (P : Py) (sp : Char → Bool) (cut : Str → Str × Str) (F : List (Str × Tree)) (H : List (Str × Str)) : Prop :=
  (∀ k v, valueOf H k = some v → InHeader P sp cut F k v) ∧ ∀ k, (∃ v, InHeader P sp cut F k v) → valueOf H k ≠ none

/-- The name of the template: the one in the headers, if it is not empty, or else that of the context. -/
inductive Named (F : List (Str × Tree)) (H : List (Str × Str)) : Str → Prop
  | header (n : Str) : n ≠ [] → valueOf H "template".toList = some n → Named F H n
  | context (n : Str) : (valueOf H "template".toList = none ∨ valueOf H "template".toList = some []) →
      lookup F "template".toList = some (.atom (.str n)) → Named F H n

/-- An entry before the templates and headers are loaded: texts are without their header block. -/
inductive Stripped (sp : Char → Bool) (cut : Str → Str × Str) : Option Tree → Option Tree → Prop
  | block (s : Str) : HasBlock sp s → Stripped sp cut (some (.atom (.str s))) (some (.atom (.str (cut s).2)))
  | text (s : Str) : ¬ HasBlock sp s → Stripped sp cut (some (.atom (.str s))) (some (.atom (.str s)))
  | other (o : Option Tree) : (∀ s, o ≠ some (.atom (.str s))) → Stripped sp cut o o

/-- The place of a name in a directory. -/
def inDir (base name : Path) : Path := if name.abs = true then name else ⟨base.abs, base.parts ++ name.parts⟩

/-- The directory something is in. -/
def dirOf (p : Path) : Path := ⟨p.abs, p.parts.dropLast⟩

/-- The directory of a template in `base`: the one with its name, or else the one its name is in. -/
inductive DirOf (disk : Disk) (base name : Path) : Path → Prop
  | own : disk.isDir (inDir base name) = true → DirOf disk base name (inDir base name)
  | parent : disk.isDir (inDir base name) = false → disk.isDir (dirOf (inDir base name)) = true → DirOf disk base name (dirOf (inDir base name))

/-- The text has an `extends` statement with the name in quotes behind the first `n` characters. -/
def ExtendsAt (sp : Char → Bool) (s : Str) (n : Nat) (name : Str) : Prop :=
  ∃ before spaces q q' after, s = before ++ "extends".toList ++ spaces ++ [q] ++ name ++ [q'] ++ after ∧ before.length = n ∧
    (∀ c ∈ spaces, sp c = true) ∧ (q = '"' ∨ q = '\'') ∧ (q' = '"' ∨ q' = '\'') ∧ name ≠ [] ∧ '"' ∉ name ∧ '\'' ∉ name

/-- The first `extends` statement of a text has the name. -/
def Extends (sp : Char → Bool) (s name : Str) : Prop :=
  ∃ n, ExtendsAt sp s n name ∧ ∀ m name', ExtendsAt sp s m name' → n ≤ m

/-- `q` is a directory of a template that the one in `p` extends. Names are `<template>/<target>/<file>`. -/
def ParentOf (sp : Char → Bool) (disk : Disk) (base p q : Path) : Prop :=
  ∃ f s name, f ∈ disk.templates p ∧ disk.text f = some s ∧ Extends sp s name ∧
    ((parse name).abs = true ∨ 2 < (parse name).parts.length) ∧ DirOf disk base (dirOf (dirOf (parse name))) q

/-- `context.txt` in a directory. -/
def contextIn (p : Path) : Path := ⟨p.abs, p.parts ++ ["context.txt".toList]⟩

/-- The context file of a template directory: the one in it, or else the one beside it. -/
inductive FileOf (disk : Disk) (p : Path) : Path → Prop
  | own (s : Str) : disk.text (contextIn p) = some s → FileOf disk p (contextIn p)
  | beside (s : Str) : disk.text (contextIn p) = none → disk.text (contextIn (dirOf p)) = some s → FileOf disk p (contextIn (dirOf p))

/-- The context files of some template directories, in order. -/
inductive FilesOf (disk : Disk) : List Path → List Path → Prop
  | nil : FilesOf disk [] []
  | file (p f : Path) (ps fs : List Path) : FileOf disk p f → FilesOf disk ps fs → FilesOf disk (p :: ps) (f :: fs)
  | none (p : Path) (ps fs : List Path) : (∀ f, ¬ FileOf disk p f) → FilesOf disk ps fs → FilesOf disk (p :: ps) fs

/-- A list with only the last of equal entries kept. -/
inductive LastOnly : List Path → List Path → Prop
  | nil : LastOnly [] []
  | again (f : Path) (l r : List Path) : f ∈ l → LastOnly l r → LastOnly (f :: l) r
  | keep (f : Path) (l r : List Path) : f ∉ l → LastOnly l r → LastOnly (f :: l) (f :: r)

/-- The directories of a template and of the templates it extends, its own first. -/
def Searched (sp : Char → Bool) (disk : Disk) (base name : Path) (paths : List Path) : Prop :=
  paths.Nodup ∧ (∀ q, q ∈ paths ↔ DirOf disk base name q ∨ ∃ p, DirOf disk base name p ∧ ParentOf sp disk base p q) ∧
    ∀ p, DirOf disk base name p → paths.head? = some p

/-- The text of a context file the entries are in: its header, if it begins with a header block. -/
inductive ReadAs (sp : Char → Bool) (cut : Str → Str × Str) : Str → Str → Prop
  | block (s : Str) : HasBlock sp s → ReadAs sp cut s (cut s).1
  | whole (s : Str) : ¬ HasBlock sp s → ReadAs sp cut s s

/-- The context file has this value for the key. -/
def InFile (P : Py) (sp : Char → Bool) (cut : Str → Str × Str) (disk : Disk) (f : Path) (k v : Str) : Prop :=
  ∃ s r, disk.text f = some s ∧ ReadAs sp cut s r ∧ valueOf (P.strToDict r) k = some v

/-- `T` are the entries of the files: the first file that has a key counts. -/
def FirstOf (P : Py) (sp : Char → Bool) (cut : Str → Str × Str) (disk : Disk) (files : List Path) (T : List (Str × Str)) : Prop :=
  ∀ k v, valueOf T k = some v ↔ ∃ a f b, files = a ++ f :: b ∧ InFile P sp cut disk f k v ∧ ∀ g ∈ a, ∀ w, ¬ InFile P sp cut disk g k w

/-- A text as a change. -/
def asText (o : Option Str) : Option Tree := o.map fun s => .atom (.str s)

/-- A list entry with the paths of the templates before its items, for `paths`; other entries are as they are. -/
def withPaths (pathVal : Path → Atom) (paths : List Path) (k : Str) (o : Option Tree) : Option Tree :=
  if k = "paths".toList then
    match o with
    | some (.list ts) => some (.list (paths.map (fun q => .atom (pathVal q)) ++ ts))
    | o => o
  else o

/-- The context `F` with its headers and its template loaded is `F'`. `H` are the entries of the headers, `T` those of the context files
of the templates in `paths`. The entries of the templates are written first, those of the headers over them. -/
structure Loaded (P : Py) (sp : Char → Bool) (cut : Str → Str × Str) (disk : Disk) (base : Path) (replace : List Str) (pathVal : Path → Atom)
    (F F' : List (Str × Tree)) (H T : List (Str × Str)) (name : Str) (paths : List Path) : Prop where
  headers : Headers P sp cut F H
  searched : Searched sp disk base (parse name) paths
  files : ∃ R seen, FilesOf disk paths R ∧ LastOnly R seen ∧ FirstOf P sp cut disk seen T
  entries : ∃ F0, (∀ k, Stripped sp cut (lookup F k) (lookup F0 k)) ∧ Named F0 H name ∧
    ∀ k, ∃ m, Entry P (Updated P 4 [] true) (decide (k ∈ replace)) true (withPaths pathVal paths k (lookup F0 k)) (asText (valueOf T k)) m ∧
      Entry P (Updated P 4 [] true) (decide (k ∈ replace)) true m (asText (valueOf H k)) (lookup F' k)

end Verif.Template
