import Verif.Model.Labels

/-!
# Model of navigation links and tables of contents

Models `/repo/src/disseminate/tags/navigation.py` (`set_navigation_labels`) and
`/repo/src/disseminate/tags/toc.py` (`Toc`).
-/

namespace Verif.Navigation

open Verif Verif.Labels

/-! ## Navigation labels -/

/-- The entries of a context: weak references to labels, and others. -/
inductive Val
  | label (uid : Nat)
  | other (n : Nat)
deriving Repr, DecidableEq

/-- What is used of a document: its id, the targets (keys of a dict) and the context. -/
structure Doc where
  docId : Str
  targets : List Str
  context : Dict Str Val
deriving Repr, DecidableEq

/-- `lst = doc_ids_by_target.setdefault(target, []); lst.append(doc_id)` for the targets of one document
(`navigation.py:33-35`). -/
def addTargets (docId : Str) : List Str → Dict Str (List Str) → Dict Str (List Str)
  | [], d => d
  | t :: ts, d => addTargets docId ts (d.set t ((d.get? t).getD [] ++ [docId]))

/-- The loop over the documents (`navigation.py:26-35`). -/
def idsByTarget (docs : List Doc) : Dict Str (List Str) :=
  docs.foldl (fun d doc => addTargets doc.docId doc.targets d) []

/-- `groupby(labels, lambda l: l.doc_id)` with the first label of each group (`navigation.py:40-41`). -/
def groupFirsts : Option Str → List Label → List (Str × Label)
  | _, [] => []
  | cur, l :: ls =>
    if cur = some l.docId then groupFirsts cur ls else (l.docId, l) :: groupFirsts (some l.docId) ls

/-- The dict of these labels (`navigation.py:40-41`). -/
def labelsByDoc (labels : List Label) : Dict Str Label := Dict.update [] (groupFirsts none labels)

/-- `"_".join((name, target.strip('.')))` (`navigation.py:66`). -/
def navKey (name target : Str) : Str := join "_".toList [name, strip (· = '.') target]

/-- One entry of a context (`navigation.py:60-78`). -/
def setEntry (ids : List Str) (byDoc : Dict Str Label) (position : Option Nat) (target : Str) (ctx : Dict Str Val)
    (nr : Str × Int) : Dict Str Val :=
  let rel := match position with
    | none => none
    | some p => if (p : Int) + nr.2 < 0 then none else some ((p : Int) + nr.2).toNat
  let key := navKey nr.1 target
  match rel.bind fun i => (ids[i]?).bind byDoc.get? with
  | some l => ctx.set key (.label l.uid)
  | none => if ctx.has key then ctx.del key else ctx

/-- The names and relative positions (`navigation.py:60`). -/
def relatives : List (Str × Int) := [("prev".toList, -1), ("curr".toList, 0), ("next".toList, 1)]

/-- The entries of one document for one target (`navigation.py:50-78`). -/
def setDoc (ids : List Str) (byDoc : Dict Str Label) (target : Str) (d : Doc) : Doc :=
  let position := if d.docId ∈ ids then some (ids.idxOf d.docId) else none
  { d with context := relatives.foldl (setEntry ids byDoc position target) d.context }

/-- `set_navigation_labels` (`navigation.py:19-78`), given the labels of headings. The second loop uses the variable
`targets` of the first one, which holds the targets of the last document. -/
def setNavigation (labels : List Label) (docs : List Doc) : List Doc :=
  let targets := match docs.getLast? with
    | some d => d.targets
    | none => []
  targets.foldl (fun ds t =>
    match (idsByTarget docs).get? t with
    | none => ds
    | some ids => ds.map (setDoc ids (labelsByDoc labels) t)) docs

/-- The function with the label manager (`navigation.py:37-39`); `none` for the exception. -/
def setNavigationLabels (m : Manager) (env : Env) (docs : List Doc) : Manager × Option (List Doc) :=
  let r := m.getLabelsByKind env none ["heading".toList]
  (r.1, r.2.map fun labels => setNavigation labels docs)

/-! ## Tables of contents -/

/-- `Toc.toc_kind`: a list of words, or the text of a tag (`toc.py:91-104`). -/
inductive TocKind
  | words (l : List Str)
  | text (s : Str)
deriving Repr, DecidableEq

/-- Whether `w` occurs in `s`. -/
def occurs (w : Str) : Str → Bool
  | [] => w.isPrefixOf []
  | c :: s => w.isPrefixOf (c :: s) || occurs w s

/-- `w in self.toc_kind`. -/
def TocKind.has : TocKind → Str → Bool
  | .words l, w => l.contains w
  | .text s, w => occurs w s

/-- `s.split()` with the class `sp` of spaces: `cur` is the word before. -/
def splitWords (sp : Char → Bool) : Str → Str → List Str
  | cur, [] => if cur = [] then [] else [cur]
  | cur, c :: s =>
    if sp c then if cur = [] then splitWords sp [] s else cur :: splitWords sp [] s
    else splitWords sp (cur ++ [c]) s

/-- The content of a tag of a table of contents. -/
inductive TocContent
  | str (s : Str)
  | tag (txt : Str)
  | list (l : List TocContent)
  | other

/-- `Toc.__init__` (`toc.py:91-104`): `none` for the `TagError`. -/
def tocKind (sp : Char → Bool) (c : TocContent) : Option TocKind :=
  let c := match c with
    | .list (x :: _) => x
    | c => c
  match c with
  | .str s => some (.words (splitWords sp [] s))
  | .tag t => some (.text t)
  | _ => none

/-- The loop for 'abbreviated' (`toc.py:143-155`). -/
def abbreviate (doc : Option Str) : Option Str → List Label → List Label
  | _, [] => []
  | cur, l :: ls =>
    if some l.docId = doc then l :: abbreviate doc (some l.docId) ls
    else if some l.docId ≠ cur then l :: abbreviate doc (some l.docId) ls
    else abbreviate doc (some l.docId) ls

/-- The labels of one kind, if one of two words is present (`toc.py:133-139`). -/
def part (m : Manager) (env : Env) (k : TocKind) (docId : Option Str) (w w' kind : Str) : Manager × Option (List Label) :=
  if k.has w || k.has w' then m.getLabelsByKind env docId [kind] else (m, some [])

/-- `Toc.get_labels` (`toc.py:113-161`), with `doc` the `doc_id` of the context; `none` for an exception. -/
def getLabels (m : Manager) (env : Env) (k : TocKind) (doc : Option Str) : Manager × Option (List Label) :=
  let docId := if k.has "all".toList then none else doc
  let r1 := part m env k docId "heading".toList "headings".toList "heading".toList
  let r2 := part r1.1 env k docId "document".toList "documents".toList "document".toList
  match r1.2, r2.2 with
  | some l1, some l2 =>
    let labels := l1 ++ l2
    (r2.1, some (if k.has "abbreviated".toList then abbreviate doc none labels else labels))
  | _, _ => (r2.1, none)

/-- `toc_levels` (`headings.py:10-11`). -/
def tocLevels : List Str := ["title", "part", "chapter", "section", "subsection", "subsubsection"].map String.toList

/-- The loop of `Toc.reference_tags` (`toc.py:172-190`): the ids and levels of the entries; `none` for a label without
kind. -/
def entries : Nat → List Label → Option (List (Str × Nat))
  | _, [] => some []
  | cur, l :: ls =>
    match l.kind.bind List.getLast? with
    | none => none
    | some k =>
      let level := if tocLevels.contains k then tocLevels.idxOf k else cur
      (entries level ls).map ((l.id, level) :: ·)

/-- `Toc.reference_tags` (`toc.py:164-190`) -/
def referenceTags (labels : List Label) : Option (List (Str × Nat)) := entries 1 labels

/-- The labels that `Toc.html_fmt` shows for the entries (`toc.py:208-217`), with their levels. Simplification: ids have
no spaces at the ends. -/
def htmlEntries (labels : List Label) : Option (List (Option Label × Nat)) :=
  let byId : Dict Str Label := Dict.update [] (labels.map fun l => (l.id, l))
  (referenceTags labels).map fun es => es.map fun e => (byId.get? e.1, e.2)

/-- The labels that `Toc.tex_fmt` shows for the entries (`toc.py:192-196`, `ref.py:79-86`). -/
def texEntries (m : Manager) (env : Env) (sep : Str) (labels : List Label) : Option (List (Option Label × Nat)) :=
  (referenceTags labels).map fun es => es.map fun e => ((m.getLabel env sep e.1).2, e.2)

end Verif.Navigation
