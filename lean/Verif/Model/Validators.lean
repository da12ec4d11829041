import Verif.Model.Strings

/-!
# Model of the validation of arguments and of the crop builder

Models `/repo/src/disseminate/builders/validators.py` and the arguments of `/repo/src/disseminate/builders/pdfcrop.py`.
-/

namespace Verif.Validators

open Verif

/-- The exceptions. -/
inductive Err
  | typeError
  | valueError
deriving Repr, DecidableEq

/-- A value given as a tuple: a string, an object without `__iter__`, an object that gives items, or one that raises a
`TypeError` when it is iterated over. -/
inductive Arg (α : Type)
  | str (s : Str)
  | single (a : α)
  | items (l : List α)
  | broken
deriving Repr, DecidableEq

/-- The outcome: a tuple, `False` or an exception. -/
inductive Outcome (α : Type)
  | tuple (l : List α)
  | no
  | raises (e : Err)
deriving Repr, DecidableEq

/-- `_raise_error` (`validators.py:6-14`). -/
def fail {α : Type} (raiseError : Bool) (e : Err) : Outcome α := if raiseError then .raises e else .no

/-- `tuple(type(i) for i in arg)` (`validators.py:83`): the first exception is raised. -/
def convert {α : Type} (conv : α → Except Err α) : List α → Except Err (List α)
  | [] => .ok []
  | a :: l =>
    match conv a with
    | .error e => .error e
    | .ok b =>
      match convert conv l with
      | .error e => .error e
      | .ok m => .ok (b :: m)

/-- `validate_tuple` (`validators.py:17-88`). -/
def validateTuple {α : Type} (arg : Arg α) (length : Option Nat) (type : Option (α → Except Err α)) (raiseError : Bool) : Outcome α :=
  match arg with
  | .str _ => fail raiseError .typeError
  | .single _ => fail raiseError .typeError
  | .broken => fail raiseError .typeError
  | .items l =>
    if length ≠ none && length ≠ some l.length then fail raiseError .valueError
    else
      match type with
      | none => .tuple l
      | some conv =>
        match convert conv l with
        | .ok m => .tuple m
        | .error .typeError => fail raiseError .typeError
        | .error e => .raises e

/-! ## Cropping -/

/-- A value of the parameters 'crop', 'crop_percentage' and 'offset': an integer, or another value. -/
inductive Param
  | int (n : Int)
  | arg (a : Arg Int)
deriving Repr, DecidableEq

/-- `bool(value)`: zero, an empty text and an empty tuple are false. -/
def Param.truthy : Param → Bool
  | .int n => n ≠ 0
  | .arg (.str s) => s ≠ []
  | .arg (.items l) => l ≠ []
  | .arg _ => true

/-- `a or b` of parameters that may be missing. -/
def orElse (a b : Option Param) : Option Param :=
  match a with
  | some p => if p.truthy then some p else b
  | none => b

/-- The value set for a parameter (`pdfcrop.py:38-45,48-54`): an integer, or a tuple of four. -/
inductive Setting
  | unset
  | one (n : Int)
  | four (l : List Int)
deriving Repr, DecidableEq

/-- `pdfcrop.py:40-45`. Simplification: the items are integers already, so that `int` keeps them. -/
def setting (p : Option Param) : Except Err Setting :=
  match p with
  | none => .ok .unset
  | some p =>
    if p.truthy then
      match p with
      | .int n => .ok (.one n)
      | .arg a =>
        match validateTuple a (some 4) (some .ok) true with
        | .tuple l => .ok (.four l)
        | .no => .ok .unset
        | .raises e => .error e
    else .ok .unset

/-- `str(n)` of an integer. -/
def showInt (n : Int) : Str := (toString n).toList

/-- `PdfCrop.run_cmd_args` (`pdfcrop.py:56-71`), given the arguments of the action, of which the first is the
program. -/
def cropArgs (crop offset : Setting) (prog : Str) (args : List Str) : List Str :=
  let args := match crop with
    | .unset => args
    | .one n => "-p".toList :: showInt n :: args
    | .four l => "-p4".toList :: (l.map showInt ++ args)
  let args := match offset with
    | .four l => "-a4".toList :: (l.map showInt ++ args)
    | _ => args
  prog :: args

/-- The arguments of a crop builder with the parameters (`pdfcrop.py:33-71`). -/
def pdfcrop (crop cropPercentage offset : Option Param) (prog : Str) (args : List Str) : Except Err (List Str) :=
  match setting (orElse crop cropPercentage) with
  | .error e => .error e
  | .ok c =>
    match setting offset with
    | .error e => .error e
    | .ok o => .ok (cropArgs c o prog args)

end Verif.Validators
