import Verif.Model.Classes

/-!
# Model of the search for scanners

Models `Scanner.get_scanner` of `/repo/src/disseminate/builders/scanners/scanner.py` on the classes of `Model/Classes`. Classes are defined
while the program runs; the attribute `_scanners` is kept for each class. The method resolution order of the classes that are defined is
a parameter.
-/

namespace Verif.ScannerCache

open Verif Verif.Classes

/-- The classes, and the classes that have an attribute `_scanners` of their own other than `None`. -/
structure World where
  table : Table
  caches : Dict Nat (Dict Str Nat)

/-- `scanner.extensions`. -/
def extensionsOf (T : Table) (mro : Nat → List Nat) (s : Nat) : List Str :=
  match lookup T mro s "extensions".toList with
  | some (.values l) => l
  | _ => []

/-- `scanners_dict` (`builders/scanners/scanner.py:33-37`). `scanner` is the class `Scanner`. -/
def scannersDict (T : Table) (mro : Nat → List Nat) (scanner : Nat) : Dict Str Nat :=
  Dict.update [] ((allSubclasses T scanner).flatMap fun s => (extensionsOf T mro s).map fun e => (e, s))

/-- `cls.get_scanner(extension)` (`builders/scanners/scanner.py:28-39`). The attribute is found at the first class of the method resolution
order that has it, and is set for `cls`. -/
def getScanner (mro : Table → Nat → List Nat) (scanner : Nat) (w : World) (cls : Nat) (ext : Str) : World × Option Nat :=
  match (mro w.table cls).findSome? fun c => w.caches.get? c with
  | some d => (w, d.get? ext)
  | none =>
    let d := scannersDict w.table (mro w.table) scanner
    ({ w with caches := w.caches.set cls d }, d.get? ext)

/-- A class is defined, or a scanner is searched. -/
inductive Event
  | define (c : ClassDef)
  | find (cls : Nat) (ext : Str)

/-- One event. -/
def step (mro : Table → Nat → List Nat) (scanner : Nat) (w : World) : Event → World
  | .define c => { w with table := w.table ++ [c] }
  | .find cls ext => (getScanner mro scanner w cls ext).1

/-- A history. -/
def run (mro : Table → Nat → List Nat) (scanner : Nat) (w : World) (es : List Event) : World := es.foldl (step mro scanner) w

end Verif.ScannerCache
