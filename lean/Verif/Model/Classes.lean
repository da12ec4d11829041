import Verif.Model.Dict

/-!
# Model of the utilities for classes and of weak attributes

Models `/repo/src/disseminate/utils/classes.py`. The classes of a program are a table in the order
of their definition; the first is `object`. A class is known by its place in the table.

Simplifications:
* values of attributes of classes are collections (lists of texts), weak attributes (descriptors,
  known by a number) or other values; only these differences matter here;
* the method resolution order is a parameter (`mro`);
* all the classes of the table are alive (`__subclasses__` forgets classes that are not);
* objects are known by a number that is never used again, and have the class `cls`;
* attributes that are not weak attributes are not modelled: their assignment does nothing here.
-/

namespace Verif.Classes

open Verif

/-- A value in the `__dict__` of a class. -/
inductive Member where
  | values (l : List Str)
  | weak (d : Nat)
  | other (n : Nat)
deriving Repr, DecidableEq

/-- A class: `__bases__` and `__dict__`. -/
structure ClassDef where
  bases : List Nat
  own : Dict Str Member
deriving Repr

abbrev Table := List ClassDef

/-- `object`. -/
def object : Nat := 0

/-- `cls.__bases__`. -/
def bases (T : Table) (c : Nat) : List Nat := ((T[c]?).map ClassDef.bases).getD []

/-- `cls.__dict__`. -/
def own (T : Table) (c : Nat) : Dict Str Member := ((T[c]?).map ClassDef.own).getD []

/-- `cls.__subclasses__()`, in the order of their definition. -/
def subclasses (T : Table) (c : Nat) : List Nat :=
  (List.range T.length).filter fun i => c ∈ bases T i

/-- `all_subclasses` (`utils/classes.py:8-31`), to a depth of `n` calls. -/
def allSubclassesN (T : Table) : Nat → Nat → List Nat
  | 0, _ => []
  | n + 1, c => subclasses T c ++ (subclasses T c).flatMap fun s => allSubclassesN T n s

/-- `all_subclasses` (`utils/classes.py:8-31`). A subclass is defined after its bases, so that the number of
classes bounds the depth of the calls. -/
def allSubclasses (T : Table) (c : Nat) : List Nat := allSubclassesN T T.length c

/-- `all_parent_classes` (`utils/classes.py:34-57`), to a depth of `n` calls. -/
def allParentsN (T : Table) : Nat → Nat → List Nat
  | 0, _ => []
  | n + 1, c => bases T c ++ (bases T c).flatMap fun s => (allParentsN T n s).filter (· ≠ object)

/-- `all_parent_classes` (`utils/classes.py:34-57`). As for `allSubclasses`, the number of classes bounds the
depth. -/
def allParents (T : Table) (c : Nat) : List Nat := allParentsN T T.length c

/-- The look-up of a class attribute: the first class of the method resolution order that has it. -/
def lookup (T : Table) (mro : Nat → List Nat) (c : Nat) (k : Str) : Option Member :=
  (mro c).findSome? fun b => (own T b).get? k

/-- `all_attributes_values` (`utils/classes.py:60-91`): the values, as a list that stands for the set.
Values that are no collections raise in the code; they are left out here. -/
def allValues (T : Table) (mro : Nat → List Nat) (c : Nat) (k : Str) : List Str :=
  (c :: allParents T c).flatMap fun b => match lookup T mro b k with
    | some (.values l) => l
    | _ => []

/-- `all_dicts` (`utils/classes.py:94-121`). -/
def allDicts (T : Table) (c : Nat) : Dict Str Member :=
  ((allParents T c).reverse ++ [c]).foldl (fun d b => d.update (own T b)) []

/-! ### Weak attributes -/

/-- The classes of the program and of its objects. -/
structure Program where
  table : Table
  mro : Nat → List Nat
  cls : Nat → Nat

/-- The names that the descriptors have found for themselves (`_attrname`), the weak references of each
object (`__weakrefattrs__`) and the objects that are gone. -/
structure World where
  names : Dict Nat Str
  refs : Dict Nat (Dict Str Nat)
  gone : List Nat
deriving Repr

inductive Err where
  | attributeError
  | keyError
deriving Repr, DecidableEq

/-- The name a descriptor finds: the last entry of `all_dicts` that is the descriptor
(`utils/classes.py:148-151`). -/
def searchName (T : Table) (c : Nat) (d : Nat) : Option Str :=
  (allDicts T c).foldl (fun acc kv => if kv.2 = .weak d then some kv.1 else acc) none

/-- `attrname` (`utils/classes.py:146-156`). -/
def attrname (p : Program) (w : World) (obj d : Nat) : Except Err (World × Str) :=
  match w.names.get? d with
  | some k => .ok (w, k)
  | none => match searchName p.table (p.cls obj) d with
    | some k => .ok ({ w with names := w.names.set d k }, k)
    | none => .error .attributeError

/-- `obj.__dict__.setdefault('__weakrefattrs__', dict())`. -/
def refsOf (w : World) (obj : Nat) : Dict Str Nat := (w.refs.get? obj).getD []

/-- `__get__` (`utils/classes.py:127-131`). -/
def get (p : Program) (w : World) (obj d : Nat) : World × Except Err (Option Nat) :=
  let w := { w with refs := w.refs.set obj (refsOf w obj) }
  match attrname p w obj d with
  | .error e => (w, .error e)
  | .ok (w, k) => (w, .ok (match (refsOf w obj).get? k with
    | some v => if v ∈ w.gone then none else some v
    | none => none))

/-- `__set__` (`utils/classes.py:133-138`). -/
def set (p : Program) (w : World) (obj d : Nat) : Option Nat → World × Except Err Unit
  | none => (w, .ok ())
  | some v =>
    let w := { w with refs := w.refs.set obj (refsOf w obj) }
    match attrname p w obj d with
    | .error e => (w, .error e)
    | .ok (w, k) => ({ w with refs := w.refs.set obj ((refsOf w obj).set k v) }, .ok ())

/-- `__delete__` (`utils/classes.py:140-143`). -/
def delete (p : Program) (w : World) (obj d : Nat) : World × Except Err Unit :=
  let w := { w with refs := w.refs.set obj (refsOf w obj) }
  match attrname p w obj d with
  | .error e => (w, .error e)
  | .ok (w, k) =>
    if (refsOf w obj).has k then ({ w with refs := w.refs.set obj ((refsOf w obj).del k) }, .ok ())
    else (w, .error .keyError)

/-- What can happen: an attribute of an object is assigned, deleted or read, or an object goes. -/
inductive Event where
  | assign (obj : Nat) (name : Str) (value : Option Nat)
  | delete (obj : Nat) (name : Str)
  | read (obj : Nat) (name : Str)
  | gone (obj : Nat)
deriving Repr, DecidableEq

/-- The weak attribute that Python finds for a name of an object: data descriptors are found through the
class. -/
def descriptor (p : Program) (obj : Nat) (name : Str) : Option Nat :=
  match lookup p.table p.mro (p.cls obj) name with
  | some (.weak d) => some d
  | _ => none

/-- One event; exceptions are caught by the caller. -/
def step (p : Program) (w : World) : Event → World
  | .assign obj name v => match descriptor p obj name with
    | some d => (set p w obj d v).1
    | none => w
  | .delete obj name => match descriptor p obj name with
    | some d => (delete p w obj d).1
    | none => w
  | .read obj name => match descriptor p obj name with
    | some d => (get p w obj d).1
    | none => w
  | .gone v => { w with gone := v :: w.gone }

/-- The events from the start of the program. -/
def run (p : Program) (es : List Event) : World := es.foldl (step p) ⟨[], [], []⟩

/-- `getattr(obj, name)` for a weak attribute; `none` for others. -/
def read (p : Program) (w : World) (obj : Nat) (name : Str) : Option (Except Err (Option Nat)) :=
  (descriptor p obj name).map fun d => (get p w obj d).2

end Verif.Classes
