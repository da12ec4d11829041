import Verif.Model.Signals

/-!
# Specification for signals
-/

namespace Verif.Signals

def Op.isReset : Op → Bool
  | .reset => true
  | .connect _ _ => false

/-- The operations after the last reset. -/
def sinceReset : List Op → List Op
  | [] => []
  | .reset :: ops => sinceReset ops
  | op :: ops => if ops.any Op.isReset then sinceReset ops else op :: ops

/-- The first receiver connected with an order. -/
def firstAt (o : Int) : List Op → Option Rec
  | [] => none
  | .connect r o' :: ops => if o' = o then some r else firstAt o ops
  | .reset :: ops => firstAt o ops

variable {V E : Type}

def Ev.order : Ev V E → Int
  | .skipped o _ => o
  | .called o _ _ => o

def Ev.receiver : Ev V E → Rec
  | .skipped _ r => r
  | .called _ r _ => r

/-- What is returned for a receiver. -/
def Ev.value : Ev V E → Option V
  | .called _ _ (.ok v) => some v
  | _ => none

end Verif.Signals
