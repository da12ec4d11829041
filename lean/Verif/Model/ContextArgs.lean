import Verif.Model.Dict

/-!
# Model of the arguments of contexts

Models the start of `BaseContext.__init__` of `/repo/src/disseminate/context/context.py`, with values of any type. The rest is the
function `create` of `Model/Context`.
-/

namespace Verif.ContextArgs

open Verif

/-- What the constructor keeps: the attribute `parent_context` if it is set, and `initial_values`. -/
structure Made (α : Type) where
  parent : Option α
  initial : Dict Str α
deriving Repr, DecidableEq

/-- `BaseContext(*args, **kwargs)` (`context/context.py:101-119`), `none` for a `TypeError`. A positional argument is a dict or a list of
pairs, here the list of its items (simplification: it is not an iterator, which could be read only once). -/
def construct {α : Type} (args : List (List (Str × α))) (kwargs : Dict Str α) : Option (Made α) :=
  match args with
  | _ :: _ :: _ => none
  | args =>
    let kwargs := args.foldl Dict.update kwargs
    let kwargs := kwargs.del "_parent_context".toList
    let kwargs := kwargs.del "_initial_values".toList
    let parent := kwargs.get? "parent_context".toList
    let kwargs := kwargs.del "parent_context".toList
    some ⟨parent, (args.foldl Dict.update []).update kwargs⟩

end Verif.ContextArgs
