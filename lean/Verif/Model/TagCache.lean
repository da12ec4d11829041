import Verif.Model.Tags

/-!
# Model of the search for tag classes while classes are defined

Models the attribute `_tag_classes` of `TagFactory` of `/repo/src/disseminate/tags/tag.py`.
-/

namespace Verif.TagCache

open Verif Verif.Tags

/-- The subclasses of `Tag` in the order of `all_subclasses`, and `TagFactory._tag_classes`. -/
structure World where
  classes : List TagClass
  cache : Option (Dict Str TagClass)

/-- `TagFactory.tag_class(tag_name, context)` (`tags/tag.py:395-431`) with the `inactive_tags` of the context: `none` for a failed assertion,
`some none` for the class `Tag`. The attribute is set after the loop (`tags/tag.py:429`). -/
def search (lower : Str → Str) (w : World) (inactive : List Str) (name : Str) : World × Option (Option TagClass) :=
  match w.cache with
  | some d => (w, some (tagClass lower d inactive name))
  | none =>
    match tagClasses w.classes [] with
    | none => (w, none)
    | some d => ({ w with cache := some d }, some (tagClass lower d inactive name))

/-- A class is defined, or a class is searched. The place of a new class in the order of `all_subclasses` depends on its bases. -/
inductive Event
  | define (place : Nat) (c : TagClass)
  | search (inactive : List Str) (name : Str)

/-- One event. -/
def step (lower : Str → Str) (w : World) : Event → World
  | .define i c => { w with classes := w.classes.take i ++ c :: w.classes.drop i }
  | .search inactive name => (search lower w inactive name).1

/-- A history. -/
def run (lower : Str → Str) (w : World) (es : List Event) : World := es.foldl (step lower) w

end Verif.TagCache
