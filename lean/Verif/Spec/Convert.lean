import Verif.Model.Convert
import Verif.Spec.Command

/-!
# Specification of the conversions of images
-/

namespace Verif.Convert

open Verif Verif.Command

/-- A name is not among the parameters. -/
def Without (ps : List Param) (name : Str) : Prop := ∀ v, Param.pair name v ∉ ps

/-- The steps to crop: none without a crop, and otherwise the program with the options of a builder with the parameters. -/
inductive CropSteps (c : Cfg) (ps : List Param) : List Step → Prop
  | none : Without ps "crop".toList → Without ps "crop_percentage".toList → CropSteps c ps []
  | crop (out : Paths.Path) (b : Builder) : ¬ (Without ps "crop".toList ∧ Without ps "crop_percentage".toList) →
      Command.new c .pdfcrop ps out = .ok b → CropSteps c ps [.run .pdfcrop b.options]

/-- The steps to scale: none without a scale, and otherwise the program with the number. -/
inductive ScaleSteps (c : Cfg) (ps : List Param) : List Step → Prop
  | none : Without ps "scale".toList → ScaleSteps c ps []
  | scale (v : Value) (t : Str) : Command.Spec.First ps "scale".toList v → Command.Spec.Number c v t → ScaleSteps c ps [.run .scalesvg { scale := t }]

/-- A program without options of its own. -/
abbrev noOptions : Options := {}

/-- The programs that are run, with their options, in order. -/
def programs (l : List Step) : List (Tool × Options) := l.filterMap fun | .run t o => some (t, o) | _ => none

end Verif.Convert
