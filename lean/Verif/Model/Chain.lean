import Verif.Model.Lists

/-!
# Model of the chains of sequential builders

Models `SequentialBuilder` (`/repo/src/disseminate/builders/composite_builders/sequential_builder.py`) as far as it sets the
parameters and output files of its sub-builders, and what running these does to files. `P` are parameters, `O` are output paths and
`C` contents of files; which parameters are paths, and which parameter an output path is, is given from outside.
-/

namespace Verif.Chain

open Verif

/-- What is fixed for a builder. `extra` are the parameters that `parameters` adds to those that were set
(`builders/builder.py:289-297`, `builders/jinja_render.py:158-188`), `gen` is the output path generated from the parameters
(`builders/builder.py:384-418`, `builders/jinja_render.py:194-221`; it always exists, since mock parameters are used if there are no
paths), and `act` is what the builder writes for the content of its first input file. -/
structure Kind (P O C : Type) where
  copy : Bool
  extra : List P → List P
  gen : List P → O
  act : Option C → C

/-- A builder: a single one, or a sequential builder. `stored` and `out` are `_parameters` and `_outfilepath`. `forName` is the
position of `subbuilder_for_outfilename` among the sub-builders (`pdfrender.py:36`, `svgrender.py:28`), and `useName` is
`use_name` and `use_suffix` (`sequential_builder.py:104-112`) of the generated path with the path of that builder, or `use_suffix`
alone. Simplification: the output path of `JinjaRender` is stored like that of the others, it is computed again from the same parameters in the code. -/
inductive B (P O C : Type)
  | leaf (k : Kind P O C) (stored : List P) (out : Option O)
  | seq (k : Kind P O C) (forName : Option Nat) (useName : O → Option O → O) (stored : List P) (out : Option O) (subs : List (B P O C))

/-- An exception of Python, or more levels of builders than `chain` was told. -/
inductive Err
  | indexError | depth
deriving Repr, DecidableEq

variable {P O C : Type} [DecidableEq P]

def B.kind : B P O C → Kind P O C
  | .leaf k _ _ => k
  | .seq k _ _ _ _ _ => k

def B.stored : B P O C → List P
  | .leaf _ s _ => s
  | .seq _ _ _ s _ _ => s

/-- `isinstance(builder, Copy)`. -/
def B.isCopy : B P O C → Bool
  | .leaf k _ _ => k.copy
  | .seq _ _ _ _ _ _ => false

/-- `Builder.parameters` (`builders/builder.py:289-297`). -/
def B.parameters (b : B P O C) : List P := Lists.uniq id (b.stored ++ b.kind.extra b.stored)

/-- Setting `parameters` if there are some, and `outfilepath` to `None` (`sequential_builder.py:70-72`). -/
def reset (current : List P) : B P O C → B P O C
  | .leaf k s _ => .leaf k (if current = [] then s else current) none
  | .seq k i f s _ subs => .seq k i f (if current = [] then s else current) none subs

def setOut (o : O) : B P O C → B P O C
  | .leaf k s _ => .leaf k s (some o)
  | .seq k i f s _ subs => .seq k i f s (some o) subs

mutual
/-- `outfilepath` (`builders/builder.py:384-418`, `sequential_builder.py:91-115`), which is stored. -/
def getOut : B P O C → O × B P O C
  | .leaf k s none =>
    let o := k.gen (B.parameters (.leaf k s none))
    (o, .leaf k s (some o))
  | .leaf k s (some o) => (o, .leaf k s (some o))
  | .seq k i f s none subs =>
    let o := k.gen (Lists.uniq id (s ++ k.extra s))
    match i with
    | none => (f o none, .seq k i f s (some (f o none)) subs)
    | some i =>
      let r := getOutAt subs i
      (f o r.1, .seq k (some i) f s (some (f o r.1)) r.2)
  | .seq k i f s (some o) subs => (o, .seq k i f s (some o) subs)

/-- `outfilepath` of the builder at a position. -/
def getOutAt : List (B P O C) → Nat → Option O × List (B P O C)
  | [], _ => (none, [])
  | b :: bs, 0 =>
    let r := getOut b
    (some r.1, r.2 :: bs)
  | b :: bs, i + 1 =>
    let r := getOutAt bs i
    (r.1, b :: r.2)
end

/-- The loop of `chain_subbuilders` (`sequential_builder.py:67-79`). `path` is an output path as a parameter. -/
def link (path : O → P) (isPath : P → Bool) : List P → List (B P O C) → List (B P O C)
  | _, [] => []
  | current, b :: bs =>
    let r := getOut (reset current b)
    r.2 :: link path isPath (path r.1 :: r.2.parameters.filter fun p => !isPath p) bs

/-- Setting the output path of the last builder. -/
def setLast (o : O) : List (B P O C) → List (B P O C)
  | [] => []
  | [b] => [setOut o b]
  | b :: bs => b :: setLast o bs

/-- The first part of `chain_subbuilders` (`sequential_builder.py:65-83`). -/
def level (path : O → P) (isPath : P → Bool) : B P O C → Except Err (B P O C)
  | .leaf k s o => .ok (.leaf k s o)
  | .seq k i f s o subs =>
    let subs := link path isPath (B.parameters (.seq k i f s o subs)) subs
    match subs.getLast? with
    | none => .error .indexError
    | some last =>
      if last.isCopy then
        match getOut (.seq k i f s o subs) with
        | (out, .seq k i f s o subs) => .ok (.seq k i f s o (setLast out subs))
        | (_, b) => .ok b
      else .ok (.seq k i f s o subs)

/-- `chain` for each of the sub-builders, in order. -/
def chainAll (f : B P O C → Except Err (B P O C)) : List (B P O C) → Except Err (List (B P O C))
  | [] => .ok []
  | b :: bs =>
    match f b with
    | .error e => .error e
    | .ok b =>
      match chainAll f bs with
      | .error e => .error e
      | .ok bs => .ok (b :: bs)

/-- `chain_subbuilders` (`sequential_builder.py:62-89`), for builders with at most `n` levels of sequential builders. -/
def chain (path : O → P) (isPath : P → Bool) : Nat → B P O C → Except Err (B P O C)
  | _, .leaf k s o => .ok (.leaf k s o)
  | 0, .seq _ _ _ _ _ _ => .error .depth
  | n + 1, .seq k i f s o subs =>
    match level path isPath (.seq k i f s o subs) with
    | .error e => .error e
    | .ok (.leaf k s o) => .ok (.leaf k s o)
    | .ok (.seq k i f s o subs) =>
      match chainAll (chain path isPath n) subs with
      | .error e => .error e
      | .ok subs => .ok (.seq k i f s o subs)

/-- The constructor (`sequential_builder.py:46-60`): a copy builder is added if there are sub-builders, and they are chained. -/
def new (path : O → P) (isPath : P → Bool) (n : Nat) (k copy : Kind P O C) (i : Option Nat) (f : O → Option O → O) (parameters : List P)
    (out : Option O) (subs : List (B P O C)) : Except Err (B P O C) :=
  if subs = [] then .ok (.seq k i f parameters out [])
  else chain path isPath n (.seq k i f parameters out (subs ++ [.leaf copy [] none]))

/-- The files: contents by path. -/
abbrev Files (P C : Type) := P → Option C

mutual
/-- Runs a builder: a single builder reads its first input file and writes its output file, a sequential builder runs its
sub-builders one after the other (`composite_builder.py:64-93`, see C50 for the order). -/
def run (path : O → P) (isPath : P → Bool) : B P O C → Files P C → Files P C
  | .leaf k s o, fs =>
    let ps := Lists.uniq id (s ++ k.extra s)
    let c := k.act ((ps.find? isPath).bind fs)
    fun p => if p = path (o.getD (k.gen ps)) then some c else fs p
  | .seq _ _ _ _ _ subs, fs => runAll path isPath subs fs

def runAll (path : O → P) (isPath : P → Bool) : List (B P O C) → Files P C → Files P C
  | [], fs => fs
  | b :: bs, fs => runAll path isPath bs (run path isPath b fs)
end

end Verif.Chain
