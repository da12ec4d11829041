import Verif.Model.Targets
import Verif.Model.Signals
import Verif.Model.Checkers
import Verif.Model.Starters

/-!
# Model of the preview server

Models `/repo/src/disseminate/server/urls.py` and the handlers of `/repo/src/disseminate/server/handlers/`. Tornado is not modelled but
for this: a request is answered by the handler of the first pattern that matches its whole path (a path has no line breaks), the group
of the pattern is decoded (`dec`, which undoes percent escapes) and given to `get`, and an exception is answered by an error page.
Static files are served by Tornado from the given directory.
-/

namespace Verif.Server

open Verif Verif.Paths

/-! ### Paths of requests (`server/urls.py:11-25`) -/

/-- The directories with static files: `templates/server/media` of the package, and the current directory. -/
inductive Dir
  | server | here
deriving Repr, DecidableEq

/-- The handlers, with the group of the pattern and `reload_projects`. -/
inductive Handler
  | tree | checkers | signals
  | static (dir : Dir) (rest : Str) (reload : Bool)
  | source (rest : Str) (reload : Bool)
  | default
deriving Repr, DecidableEq

/-- The text after a prefix. -/
def after (p s : Str) : Option Str := if p.isPrefixOf s then some (s.drop p.length) else none

/-- The handler of a path (`server/urls.py:11-25`). -/
def route (path : Str) : Handler :=
  if path = "/".toList then .tree
  else if path = "/checkers".toList then .checkers
  else if path = "/signals".toList then .signals
  else
    match after "/media/".toList path with
    | some r => .static .server r false
    | none =>
      match after "/".toList path with
      | none => .default
      | some r =>
        if ".dm".toList.isSuffixOf r then .source r false
        else if ".tex".toList.isSuffixOf r then .source r true
        else if ".html".toList.isSuffixOf r then .static .here r true
        else if ".epub".toList.isSuffixOf r then .static .here r true
        else .static .here r false

/-! ### The tree of documents (`handlers/tree.py`) -/

/-- What is shown of a document: its title, its source path, its builders, the modification time of its source file if it is there, and
its subdocuments. -/
inductive Doc
  | mk (title : Str) (src : SourcePath) (builders : Targets.Builders) (mtime : Option Nat) (subs : List Doc)

/-- An entry of the tree (`handlers/tree.py:32-58`); the project root is part of the source path. -/
inductive Entry
  | mk (number level : Nat) (title : Str) (src : SourcePath) (targets : Dict Str TargetPath) (date : Nat) (subs : List Entry)

/-- The exceptions: `TargetNotFound`, a missing file, no lexer for a file, and others from loading and building. -/
inductive Err
  | target | missing | lexer | other
deriving Repr, DecidableEq

/-- The links of the targets (`handlers/tree.py:43-46`). -/
def links (bs : Targets.Builders) : List Str → Except Err (Dict Str TargetPath)
  | [] => .ok []
  | t :: ts =>
    match Targets.targetFilepath bs t with
    | none => .error .target
    | some p =>
      match links bs ts with
      | .error e => .error e
      | .ok l => .ok ((t, p) :: l)

mutual
/-- The entry of a document (`handlers/tree.py:28-62`). -/
def entry (level number : Nat) : Doc → Except Err Entry
  | .mk title src bs mtime subs =>
    match links bs (Targets.targetFilepaths bs).keys with
    | .error e => .error e
    | .ok ts =>
      match mtime with
      | none => .error .missing
      | some m =>
        match entries (level + 1) 1 subs with
        | .error e => .error e
        | .ok l => .ok (.mk number level title src ts m l)

/-- `tree_to_dict` (`handlers/tree.py:21-64`), from a number on. -/
def entries (level number : Nat) : List Doc → Except Err (List Entry)
  | [] => .ok []
  | d :: ds =>
    match entry level (if level = 1 then 1 else number) d with
    | .error e => .error e
    | .ok x =>
      match entries level (number + 1) ds with
      | .error e => .error e
      | .ok xs => .ok (x :: xs)
end

/-! ### The list of checkers (`handlers/checkers.py`) -/

/-- The status shown for a dependency (`handlers/checkers.py:31-38`). -/
inductive Status
  | ok | fail | missing | unknown
deriving Repr, DecidableEq

/-- An entry of the list of checkers. -/
inductive Check
  | mk (level : Nat) (status : Status) (name : Str) (subs : List Check)

/-- The status for `available` (`handlers/checkers.py:30-38`). -/
def statusOf (available : Option Bool) (required : Bool) : Status :=
  if available = some true then .ok
  else if available = some false ∧ required then .fail
  else if available = some false ∧ ¬required then .missing
  else .unknown

mutual
/-- `checker_to_dict` (`handlers/checkers.py:23-78`), without the message, which has the name. -/
def check (required : Bool) (level : Nat) : Checkers.Dep → Check
  | .prog n a => .mk level (statusOf a required) n []
  | .group k c ds =>
    .mk level (statusOf (some (Checkers.available (.group k c ds))) required) c (checks (k = .all) (level + 1) ds)

/-- The entries of a list. -/
def checks (required : Bool) (level : Nat) : List Checkers.Dep → List Check
  | [] => []
  | d :: ds => check required level d :: checks required level ds
end

/-! ### The list of signals (`handlers/signals.py`) -/

/-- The rows for the receivers of a signal (`handlers/signals.py:41-53`): orders and receivers that are alive. -/
def receivers (alive : Nat → Bool) (s : Signals.Sig) : List (Int × Nat) :=
  Starters.sortWith (fun a b => decide (a.1 ≤ b.1)) ((s.filter fun kv => !kv.2.weak || alive kv.2.id).map fun kv => (kv.1, kv.2.id))

/-- `signals_to_dict` (`handlers/signals.py:18-57`): the signals in the order of the namespace. -/
def signalRows (alive : Nat → Bool) (ns : Dict Str Signals.Sig) : List (Str × List (Int × Nat)) :=
  ns.map fun kv => (kv.1, receivers alive kv.2)

/-! ### Requests -/

/-- What is there at the time of a request: the root documents that `create_environments` finds (`R` names documents), the tree of a
root document after `build()`, the files, whether there is a lexer for a file name, the checkers after the checks, and the signals. -/
structure World (R : Type) where
  found : Except Err (List R)
  built : R → Except Err Doc
  read : Path → Except Err Str
  lexer : Str → Bool
  checkers : List Checkers.Dep
  alive : Nat → Bool
  namespace' : Dict Str Signals.Sig

/-- What a request makes happen: projects are looked for, a root document is built. -/
inductive Ev (R : Type)
  | searched
  | built (r : R)
deriving Repr, DecidableEq

/-- The page of an answer. The text of a source file is highlighted. -/
inductive Answer
  | tree (l : List Entry)
  | checkers (l : List Check)
  | signals (l : List (Str × List (Int × Nat)))
  | source (text : Str)
  | static (dir : Dir) (rest : Str)
  | error

variable {R : Type}

/-- `[doc.build() for doc in store['root_documents']]` (`handlers/projects.py:37`). -/
def buildAll (w : World R) : List R → Except Err (List Doc) × List (Ev R)
  | [] => (.ok [], [])
  | r :: rs =>
    match w.built r with
    | .error e => (.error e, [.built r])
    | .ok d =>
      match buildAll w rs with
      | (.error e, evs) => (.error e, .built r :: evs)
      | (.ok ds, evs) => (.ok (d :: ds), .built r :: evs)

/-- `load_projects` (`handlers/projects.py:10-38`), with the store (`handlers/store.py`). -/
def loadProjects (w : World R) : Option (List R) → Except Err (List Doc) × Option (List R) × List (Ev R)
  | some rs =>
    match buildAll w rs with
    | (res, evs) => (res, some rs, evs)
  | none =>
    match w.found with
    | .error e => (.error e, none, [.searched])
    | .ok rs =>
      match buildAll w rs with
      | (res, evs) => (res, some rs, .searched :: evs)

/-- `PygmentizeHandler.get` (`handlers/pygmentize.py:16-26`). -/
def highlight (w : World R) (path : Str) : Answer :=
  if w.lexer path then
    match w.read (parse path) with
    | .error _ => .error
    | .ok text => .source text
  else .error

/-- `ServerHandler.initialize` (`handlers/server.py:25-28`): the projects are loaded if asked for. -/
def load (w : World R) (reload : Bool) (store : Option (List R)) (get : Answer) : Answer × Option (List R) × List (Ev R) :=
  if reload then
    match loadProjects w store with
    | (.error _, store, evs) => (.error, store, evs)
    | (.ok _, store, evs) => (get, store, evs)
  else (get, store, [])

/-- A request (`server/urls.py:11-25`, the methods `get` of the handlers). -/
def request (dec : Str → Str) (w : World R) (path : Str) (store : Option (List R)) : Answer × Option (List R) × List (Ev R) :=
  match route path with
  | .tree =>
    match loadProjects w store with
    | (.error _, store, evs) => (.error, store, evs)
    | (.ok docs, store, evs) =>
      match entries 1 1 docs with
      | .error _ => (.error, store, evs)
      | .ok l => (.tree l, store, evs)
  | .checkers => (.checkers (checks true 1 w.checkers), store, [])
  | .signals => (.signals (signalRows w.alive w.namespace'), store, [])
  | .static dir r reload => load w reload store (.static dir (dec r))
  | .source r reload => load w reload store (highlight w (dec r))
  | .default => (.error, store, [])

/-- Requests one after the other: the answers, with what they make happen. -/
def serve (dec : Str → Str) : List (World R × Str) → Option (List R) → List (Answer × List (Ev R))
  | [], _ => []
  | (w, path) :: rest, store =>
    match request dec w path store with
    | (a, store, evs) => (a, evs) :: serve dec rest store

end Verif.Server
