import Verif.Model.Dict

/-!
# Model of `signals/signals.py` and `tags/signals.py`

Receivers are named by numbers. What a receiver does is given by `Env`: whether the object is still alive (for weak
references), whether the tag lets it run, and what calling it returns or raises; all of them
may depend on a world that the receivers change. Simplification: orders are integers, so that sorting the items never
compares two receivers (the orders in a dict are distinct).
-/

namespace Verif.Signals

open Verif

/-- An entry of `receivers`: the receiver, and whether it is a weak reference (`signals/signals.py:45`). -/
structure Rec where
  id : Nat
  weak : Bool
deriving Repr, DecidableEq

/-- `Signal.receivers`. -/
abbrev Sig := Dict Int Rec

/-- `connect` (`signals/signals.py:28-45`); `none` is `DuplicateSignal`. -/
def connect (s : Sig) (r : Rec) (order : Int) : Option Sig :=
  if s.has order then none else some (s.set order r)

/-- Insertion by order. -/
def insertItem (a : Int × Rec) : List (Int × Rec) → List (Int × Rec)
  | [] => [a]
  | b :: l => if a.1 ≤ b.1 then a :: b :: l else b :: insertItem a l

/-- `sorted(self.receivers.items())` (`signals/signals.py:57`). -/
def sortItems : List (Int × Rec) → List (Int × Rec)
  | [] => []
  | a :: l => insertItem a (sortItems l)

/-- What receivers do. -/
structure Env (W V E : Type) where
  alive : Nat → W → Bool
  /-- `getattr(tag, receiver.__name__, True)` (`tags/signals.py:28`). -/
  enabled : Nat → W → Bool
  run : Nat → W → Except E V × W

/-- What happens to one receiver. -/
inductive Ev (V E : Type)
  | skipped (order : Int) (r : Rec)
  | called (order : Int) (r : Rec) (res : Except E V)

variable {W V E : Type}

/-- The loop of `emit`; `check` tells whether the tag's attributes are looked at (`tags/signals.py:14-32`) or
not (`signals/signals.py:54-65`). The results, the world afterwards, and what happened. An exception ends it. -/
def emitLoop (env : Env W V E) (check : Bool) : List (Int × Rec) → W → Except E (List (Option V)) × W × List (Ev V E)
  | [], w => (.ok [], w, [])
  | (o, r) :: l, w =>
    if (!r.weak || env.alive r.id w) && (!check || env.enabled r.id w) then
      match env.run r.id w with
      | (.error e, w) => (.error e, w, [.called o r (.error e)])
      | (.ok v, w) =>
        match emitLoop env check l w with
        | (res, w, evs) => (res.map (some v :: ·), w, .called o r (.ok v) :: evs)
    else
      match emitLoop env check l w with
      | (res, w, evs) => (res.map (none :: ·), w, .skipped o r :: evs)

/-- `emit`. -/
def emit (env : Env W V E) (check : Bool) (s : Sig) (w : W) : Except E (List (Option V)) × W × List (Ev V E) :=
  emitLoop env check (sortItems s) w

/-- `receivers_dict` (`signals/signals.py:67-71`). -/
def receiversDict (env : Env W V E) (s : Sig) (w : W) : Dict Int Nat :=
  (s.filter fun kv => !kv.2.weak || env.alive kv.2.id w).map fun kv => (kv.1, kv.2.id)

/-- What is done to the receivers of a signal. -/
inductive Op
  | connect (r : Rec) (order : Int)
  | reset

/-- One operation. A failed `connect` raises before anything is changed. -/
def step (s : Sig) : Op → Sig
  | .connect r o => (connect s r o).getD s
  | .reset => []

def history (ops : List Op) : Sig := ops.foldl step []

/-! ### Namespaces -/

/-- `Namespace.signal` (`signals/signals.py:81-97`): the signal with a name, which is created if there is none. Signals
are named by numbers, `next` is the number of the next one. -/
def signal (ns : Dict Str Nat) (next : Nat) (name : Str) : Nat × Dict Str Nat × Nat :=
  match ns.get? name with
  | some i => (i, ns, next)
  | none => (next, ns.set name next, next + 1)

/-- A sequence of calls of `signal`: the signals returned. -/
def signalCalls : Dict Str Nat → Nat → List Str → List Nat
  | _, _, [] => []
  | ns, next, name :: names =>
    match signal ns next name with
    | (i, ns, next) => i :: signalCalls ns next names

end Verif.Signals
