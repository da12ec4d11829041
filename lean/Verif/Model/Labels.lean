import Verif.Model.Dict
import Verif.Model.Strings

/-!
# Model of the label manager

Models `/repo/src/disseminate/label_manager/` (`label_manager.py`,
`register_orders.py`, `register_content_labels.py`, `types/`).

Simplifications:
* label objects are immutable records here, replaced in the manager's dict when the code
  changes an attribute; `uid` stands for the identity of the object, and a (weak) reference to a label
  is its `uid`;
* a weak reference leads to a label as long as the manager holds the label (tags, which may also hold
  labels for a while, are not modelled);
* the `Lock` in `register` is local to the call and has no effect; it is left out;
* the document tree and the `label_resets` entry are parameters of `register` (`Env`).
-/

namespace Verif.Labels

open Verif

/-- The ranks of headings (`register_content_labels.py:20-25`). -/
inductive Rank where
  | part | chapter | section | subsection | subsubsection
deriving Repr, DecidableEq

/-- The references of a content label to its enclosing headings (`types/content_label.py:36-42`). -/
abbrev Links := Rank → Option Nat

/-- `Label`, `ContentLabel` and `DocumentLabel` (`types/*.py`). `content` tells whether it is a
`ContentLabel`. -/
structure Label where
  uid : Nat
  docId : Str
  id : Str
  kind : Option (List Str)
  content : Bool
  title : Str
  order : Option (List Nat)
  links : Links

/-- The key of a label. -/
abbrev Key := Str × Str

/-- `LabelManager` (`label_manager.py:54-77`), and the next free object identity. -/
structure Manager where
  labels : Dict Key Label
  registered : Bool
  next : Nat

def Manager.init : Manager := ⟨[], false, 0⟩

/-- The project at the time of a registration: the `doc_ids` of the root document, if there is a root
document, and the `label_resets` entry, a dict of collections (empty if missing). -/
structure Env where
  docIds : Option (List Str)
  resets : Dict Str (List Str)

/-- `parse_id` (`label_manager.py:17-51`). -/
def parseId (sep id : Str) : Option Str × Str :=
  match split sep id with
  | [d, l] => (some d, l)
  | p :: _ => (none, p)
  | [] => (none, [])

/-- `reorder_and_purge_labels_by_doc_id` (`register_orders.py:8-41`). `doc_ids.index` is the first place;
it is only used for members of `doc_ids`. -/
def reorder (docIds : Option (List Str)) (labels : List Label) : List Label :=
  let ids := match docIds with
    | some ids => ids
    | none => labels.map Label.docId
  sortedBy (fun l => ids.idxOf l.docId) (labels.filter fun l => l.docId ∈ ids)

/-- `Counter`: missing keys count 0. -/
abbrev Counter := Str → Nat

def Counter.set (c : Counter) (k : Str) (n : Nat) : Counter := fun x => if x = k then n else c x

/-- The loop over the kinds of one label (`register_orders.py:95-109`). -/
def countKinds (resets : Dict Str (List Str)) : Counter → List Str → Counter × List Nat
  | c, [] => (c, [])
  | c, k :: ks =>
    let c := c.set k (c k + 1)
    let c := match resets.get? k with
      | some zs => zs.foldl (fun c z => c.set z 0) c
      | none => c
    let n := c k
    let (c', ns) := countKinds resets c ks
    (c', n :: ns)

/-- The loop over the labels (`register_orders.py:81-109`); labels without kind are left out. -/
def setOrders (resets : Dict Str (List Str)) : Counter → List Label → List Label
  | _, [] => []
  | c, l :: ls => match l.kind with
    | none => l :: setOrders resets c ls
    | some ks =>
      let (c', order) := countKinds resets c ks
      { l with order := some order } :: setOrders resets c' ls

/-- The rank of a label of the given kind: `label.kind and label.kind[-1] == …`
(`register_content_labels.py:40-69`). -/
def rankOf (kind : Option (List Str)) : Option Rank :=
  match kind.bind List.getLast? with
  | none => none
  | some k =>
    if k = "part".toList then some .part
    else if k = "chapter".toList then some .chapter
    else if k = "section".toList then some .section
    else if k = "subsection".toList then some .subsection
    else if k = "subsubsection".toList then some .subsubsection
    else none

/-- The current headings after a label (`register_content_labels.py:40-69`). -/
def enter (cur : Links) (l : Label) : Links :=
  match rankOf l.kind with
  | some .part => fun
    | .part => some l.uid
    | _ => none
  | some .chapter => fun
    | .part => cur .part
    | .chapter => some l.uid
    | _ => none
  | some .section => fun
    | .part => cur .part
    | .chapter => cur .chapter
    | .section => some l.uid
    | _ => none
  | some .subsection => fun
    | .part => cur .part
    | .chapter => cur .chapter
    | .section => cur .section
    | .subsection => some l.uid
    | _ => none
  | some .subsubsection => fun
    | .part => cur .part
    | .chapter => cur .chapter
    | .section => cur .section
    | .subsection => cur .subsection
    | .subsubsection => some l.uid
  | none => cur

/-- `label.part_label = part_label` and so on (`register_content_labels.py:71-76`); the descriptor does
nothing if it is assigned `None` (`utils/classes.py:137-139`). -/
def assign (links cur : Links) : Links := fun r =>
  match cur r with
  | some u => some u
  | none => links r

/-- The loop of `register_content_labels` (`register_content_labels.py:27-76`). -/
def setLinks : Links → List Label → List Label
  | _, [] => []
  | cur, l :: ls =>
    if l.content then
      let cur := enter cur l
      { l with links := assign l.links cur } :: setLinks cur ls
    else l :: setLinks cur ls

/-- The registration functions (`label_manager.py:90-94`) on the labels in their order. -/
def registerLabels (env : Env) (labels : List Label) : List Label :=
  setLinks (fun _ => none) (setOrders env.resets (fun _ => 0) (reorder env.docIds labels))

/-- `labels.clear()` and `labels[label.doc_id, label.id] = label` (`register_orders.py:38-41`). -/
def toDict (labels : List Label) : Dict Key Label :=
  labels.foldl (fun d l => Dict.set d (l.docId, l.id) l) []

/-- `register` (`label_manager.py:79-99`). The labels are put into the dict again after the loops; in the code
this happens before them, with objects that the loops then change. -/
def Manager.register (m : Manager) (env : Env) : Manager :=
  if m.registered then m
  else { m with labels := toDict (registerLabels env (m.labels.map Prod.snd)), registered := true }

/-- `reset` (`label_manager.py:101-120`). `none` clears all. -/
def Manager.reset (m : Manager) (docIds : Option (List Str)) : Manager :=
  match docIds with
  | none => { m with labels := [], registered := false }
  | some ids => { m with labels := m.labels.filter (fun kl => kl.1.1 ∉ ids), registered := false }

/-- `add_label` (`label_manager.py:122-174`), called for a document with identifier `doc`. Returns the state, and
the label or `none` for `DuplicateLabel`. -/
def Manager.addLabel (m : Manager) (sep id : Str) (kind : Option (List Str)) (doc : Str) (content : Bool)
    (title : Str) : Manager × Option Label :=
  let m := { m with registered := false }
  let (d, lid) := parseId sep id
  let docId := d.getD doc
  if Dict.has m.labels (docId, lid) then (m, none)
  else
    let l : Label := ⟨m.next, docId, lid, kind, content, title, none, fun _ => none⟩
    ({ m with labels := Dict.set m.labels (docId, lid) l, next := m.next + 1 }, some l)

/-- `get_label` (`label_manager.py:196-246`): the state after the registration, and the label or `none` for
`LabelNotFound`. -/
def Manager.getLabel (m : Manager) (env : Env) (sep id : Str) : Manager × Option Label :=
  let m := m.register env
  let (d, lid) := parseId sep id
  match d with
  | some d => (m, Dict.get? m.labels (d, lid))
  | none => (m, (m.labels.find? fun kl => kl.1.2 = lid).map Prod.snd)

/-- `get_labels_by_id` (`label_manager.py:248-284`); `none` for `LabelNotFound`. -/
def Manager.getLabelsById (m : Manager) (env : Env) (sep : Str) (ids : List Str) : Manager × Option (List Label) :=
  let m := m.register env
  (m, ids.mapM fun id => (m.getLabel env sep id).2)

/-- `get_labels_by_kind` (`label_manager.py:286-332`). `none` for the `TypeError` of `kind in label.kind` with a label
without kind. -/
def Manager.getLabelsByKind (m : Manager) (env : Env) (docId : Option Str) (kinds : List Str) :
    Manager × Option (List Label) :=
  let m := m.register env
  let labels := m.labels.map Prod.snd
  let labels := match docId with
    | some d => labels.filter (fun l => l.docId = d)
    | none => labels
  if kinds = [] then (m, some labels)
  else if labels.any (fun l => l.kind.isNone) then (m, none)
  else (m, some (kinds.flatMap fun k => labels.filter fun l => k ∈ l.kind.getD []))

/-- `get_label_number` (`types/content_label.py:5-11`): the last number of a label. `none` stands for the default. -/
def labelNumber (l : Label) : Option Nat := l.order.bind List.getLast?

/-- The label a weak reference to the object `u` gives: `None` once the label is gone
(`utils/classes.py:128-159`). Labels are taken to be held by their manager only. -/
def Manager.deref (m : Manager) (u : Option Nat) : Option Label :=
  u.bind fun u => (m.labels.map Prod.snd).find? fun l => l.uid = u

/-- `tree_number` (`types/content_label.py:102-119`), as the list of numbers that are joined with dots.
`filter(bool, ...)` drops missing numbers and zeros. -/
def Manager.treeNumber (m : Manager) (l : Label) : List Nat :=
  [Rank.part, .chapter, .section, .subsection, .subsubsection].filterMap fun r =>
    ((m.deref (l.links r)).bind labelNumber).filter (· ≠ 0)

/-- What can happen to a label manager. -/
inductive Op where
  | add (id : Str) (kind : Option (List Str)) (doc : Str) (content : Bool) (title : Str)
  | reset (docIds : Option (List Str))
  | register (env : Env)

def Manager.step (sep : Str) (m : Manager) : Op → Manager
  | .add id kind doc content title => (m.addLabel sep id kind doc content title).1
  | .reset ids => m.reset ids
  | .register env => m.register env

def Manager.run (sep : Str) (m : Manager) (ops : List Op) : Manager := ops.foldl (Manager.step sep) m

end Verif.Labels
