import Verif.Model.Epub
import Verif.Spec.Scanner
import Verif.Spec.Links
import Verif.Spec.Paths

/-!
# Specification of epub files
-/

namespace Verif.Epub

open Verif Verif.Paths Verif.Scanner Verif.Links

/-- `r` is `l` with only the first of the items that have the same key. -/
inductive FirstBy {α κ : Type} (key : α → κ) : List α → List α → Prop
  | nil : FirstBy key [] []
  | new (a : α) (l r : List α) : (∀ b ∈ l, key b ≠ key a) → FirstBy key l r → FirstBy key (l ++ [a]) (r ++ [a])
  | again (a b : α) (l r : List α) : b ∈ l → key b = key a → FirstBy key l r → FirstBy key (l ++ [a]) r

/-- The paths among parameters. -/
inductive PathsOf : List Param → List PyPath → Prop
  | nil : PathsOf [] []
  | path (p : PyPath) (l : List Param) (r : List PyPath) : PathsOf l r → PathsOf (.path p :: l) (p :: r)
  | value (v : Str) (l : List Param) (r : List PyPath) : PathsOf l r → PathsOf (.value v :: l) r

/-- A path of a project or a target: its root, and its path below the root. -/
inductive Tracked : PyPath → Path → Path → Prop
  | source (root sub : Path) : Tracked (.source ⟨root, sub⟩) root sub
  | target (root target sub : Path) : Tracked (.target ⟨root, target, sub⟩) (div root target) sub

/-- A well-formed path with a root. -/
def Fine (p : PyPath) : Prop := GoodPy p ∧ ∃ root sub, Tracked p root sub

/-- Following names from the directory at `d` leads to `e`, without going above the top directory. -/
inductive Within : List Str → List Str → List Str → Prop
  | here (d : List Str) : Within d [] d
  | up {d l e : List Str} (x : Str) : Within d l e → Within (d ++ [x]) (['.', '.'] :: l) e
  | down {d l e : List Str} (n : Str) : n ≠ ['.', '.'] → Within (d ++ [n]) l e → Within d (n :: l) e

/-- The place of a file in the archive: that of its path below its root, in the directory `xhtml`. -/
def Place (p : PyPath) (e : List Str) : Prop := ∃ root sub, Tracked p root sub ∧ Within ["xhtml".toList] sub.parts e

/-- The entries for files, in order. -/
inductive Written : List PyPath → List (Str × Content) → Prop
  | nil : Written [] []
  | cons (p : PyPath) (ps : List PyPath) (n : Str) (l : List (Str × Content)) : (∀ e, e ≠ [] → Place p e → Slashed n e) → Written ps l →
      Written (p :: ps) ((n, .file p) :: l)

/-- The last name of a path is `n`. -/
def Named (p : PyPath) (n : String) : Prop := p.full.parts.getLast? = some n.toList

/-- The item of the manifest for a file: its link leads from the directory `xhtml` to the place of the file. -/
structure ItemFor (slug : Str → Str) (p : PyPath) (i : Item) : Prop where
  leads : ∀ e, Place p e → ∃ names, Slashed i.subpath names ∧ Walk ["xhtml".toList] names e
  toc : i.isToc = true ↔ Named p "toc.xhtml"
  tocId : i.isToc = true → i.id = "toc".toList
  otherId : i.isToc = false → i.id = slug i.subpath

inductive ItemsFor (slug : Str → Str) : List PyPath → List Item → Prop
  | nil : ItemsFor slug [] []
  | cons (p : PyPath) (i : Item) (ps : List PyPath) (l : List Item) : ItemFor slug p i → ItemsFor slug ps l →
      ItemsFor slug (p :: ps) (i :: l)

/-- The reading order: titles, then tables of contents, then the others. -/
inductive Reading (ps : List PyPath) : List PyPath → Prop
  | mk (ts cs os : List PyPath) : ts.Sublist ps → (∀ p, p ∈ ts ↔ p ∈ ps ∧ Named p "title.xhtml") → cs.Sublist ps →
      (∀ p, p ∈ cs ↔ p ∈ ps ∧ Named p "toc.xhtml") → os.Sublist ps →
      (∀ p, p ∈ os ↔ p ∈ ps ∧ ¬ Named p "title.xhtml" ∧ ¬ Named p "toc.xhtml") → Reading ps (ts ++ cs ++ os)

/-- The files of one type, in order. -/
inductive OfType (sfx : Str) : List PyPath → List PyPath → Prop
  | nil : OfType sfx [] []
  | keep (p : PyPath) (l r : List PyPath) : suffix p.full = sfx → OfType sfx l r → OfType sfx (p :: l) (p :: r)
  | drop (p : PyPath) (l r : List PyPath) : suffix p.full ≠ sfx → OfType sfx l r → OfType sfx (p :: l) r

/-- The archive for parameters: the paths among them and the files their pages link to, each once; the package file lists them by type,
in reading order. `names` are the local names in the links of a text. -/
inductive IsEpub (files : Scanner.Files) (names : Str → List Str → Prop) (slug : Str → Str) (resolve : Path → Path) (stored : List Param) :
    List (Str × Content) → Prop
  | mk (ps pages ins xs a b c : List PyPath) (found : List SourcePath) (pkg : Package) (rest : List (Str × Content)) :
      PathsOf stored ps → FirstBy (fun p => resolve p.full) ps pages → Scanned files names pages found →
      FirstBy (fun p => resolve p.full) (ps ++ found.map .source) ins → (∀ p ∈ ins, files p.full ≠ none) → Reading ins xs →
      OfType ".xhtml".toList xs a → ItemsFor slug a pkg.xhtml → OfType ".svg".toList xs b → ItemsFor slug b pkg.svg →
      OfType ".css".toList xs c → ItemsFor slug c pkg.css → Written ins rest →
      IsEpub files names slug resolve stored (("mimetype".toList, .mimetype) :: ("META-INF/container.xml".toList, .container) ::
        ("xhtml/content.opf".toList, .package pkg) :: rest)

/-- Every link of the pages leads to a file. -/
def Linked (files : Scanner.Files) (names : Str → List Str → Prop) (stored : List Param) : Prop :=
  ∀ p root dir text, .path p ∈ stored → IsPage files p root dir text → ∃ ns, names text ns ∧ ∀ n ∈ ns, ∃ x, LeadsTo files root dir n x

/-- Links of the pages stay below the root. -/
def Stay (files : Scanner.Files) (names : Str → List Str → Prop) (stored : List Param) : Prop :=
  ∀ p root dir text ns n x, .path p ∈ stored → IsPage files p root dir text → names text ns → n ∈ ns → LeadsTo files root dir n x →
    ∃ e, Within [] x.sub.parts e

/-- A file is below the roots of the parameters at one place only. -/
def OnePlace (resolve : Path → Path) (stored : List Param) : Prop :=
  ∀ p p' r r' t t' s s' e e', .path p ∈ stored → .path p' ∈ stored → Tracked p r t → Tracked p' r' t' → Good s → Good s' →
    s.abs = false → s'.abs = false → resolve (div r s) = resolve (div r' s') → Within [] s.parts e → Within [] s'.parts e' → e = e'

end Verif.Epub
