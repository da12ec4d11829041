import Verif.Model.Attributes

/-!
# Model of the making, copies and changes of attributes

Models `Attributes.__init__`, `Attributes.copy` and `Attributes.append` of `/repo/src/disseminate/attributes/attributes.py`.

Simplifications: as in `Model/Attributes`, values are texts or classes of positional values, so that the branch of `append` for
lists is not modelled.
-/

namespace Verif.Attrs

open Verif

/-- An argument of `Attributes(...)`: a text, `None`, or attributes. -/
inductive Arg
  | text (s : Str)
  | none
  | dict (d : ADict)
deriving Repr, DecidableEq

/-- The text of an argument, if it is one (`isinstance(x, str)`). -/
def Arg.text? : Arg → Option Str
  | .text s => some s
  | _ => Option.none

/-- The attributes of an argument, if it is some. -/
def Arg.dict? : Arg → Option ADict
  | .dict d => some d
  | _ => Option.none

/-- `load` (`attributes.py:151-194`) into attributes that exist. -/
def loadInto (targets : List Str) (posType : Str → PType) (isWord isSpace : Char → Bool) (d : ADict) (s : Str) : ADict :=
  Dict.update d ((tokens isWord isSpace (s.length + 1) s).map (entry targets posType))

/-- `Attributes(*args, **kwargs)` (`attributes.py:123-131`): first the texts, then `dict.__init__`, which takes one argument and
raises a `TypeError` for more. `none` is this exception. -/
def init (targets : List Str) (posType : Str → PType) (isWord isSpace : Char → Bool) (args : List Arg) (kwargs : ADict) : Option ADict :=
  let d := (args.filterMap Arg.text?).foldl (loadInto targets posType isWord isSpace) []
  match args.filterMap Arg.dict? with
  | [] => some (Dict.update d kwargs)
  | [e] => some (Dict.update (Dict.update d e) kwargs)
  | _ => none

/-- `copy` (`attributes.py:136-137`): the entries are given as keyword arguments of a function with the argument `self`, so that an
entry with this name is a `TypeError`. -/
def copy (targets : List Str) (posType : Str → PType) (isWord isSpace : Char → Bool) (d : ADict) : Option ADict :=
  if Dict.get? d "self".toList = .none then init targets posType isWord isSpace [] d else .none

/-- `str(cls)` of a class of positional values (`utils/types.py:6-23`). -/
def PType.repr : PType → Str
  | .any => "<class 'disseminate.utils.types.PositionalValue'>".toList
  | .int => "<class 'disseminate.utils.types.IntPositionalValue'>".toList
  | .float => "<class 'disseminate.utils.types.FloatPositionalValue'>".toList
  | .string => "<class 'disseminate.utils.types.StringPositionalValue'>".toList

/-- `str(value)`. -/
def AVal.repr : AVal → Str
  | .str s => s
  | .pos t => t.repr

/-- `append` (`attributes.py:331-358`). -/
def append (d : ADict) (attr : Str) (value : Option AVal) : ADict :=
  match value with
  | .none => Dict.set d attr (.pos .any)
  | some v =>
    match Dict.get? d attr with
    | .none => Dict.set d attr v
    | some (.str cur) => Dict.set d attr (.str (cur ++ ' ' :: v.repr))
    | some (.pos t) => Dict.set d attr (.str (t.repr ++ ' ' :: v.repr))

end Verif.Attrs
