import Verif.Model.Media
import Verif.Spec.Render
import Verif.Spec.Links
import Verif.Spec.Paths

/-!
# Specification of images
-/

namespace Verif.Media.Spec

open Verif Verif.Attrs Verif.Attrs.Spec Verif.Formats Verif.Render Verif.Render.Spec Verif.Paths Verif.Links

/-- The path of a file as text. -/
def FileText (file : TargetPath) (s : Str) : Prop :=
  ∃ p, FileOf file p ∧ (p.abs = true → ∃ r, s = '/' :: r ∧ Slashed r p.parts) ∧ (p.abs = false → Slashed s p.parts)

/-- `out` is the command that includes the file at `path` with the options `o`: the path without its extension is in
braces, and taken as it is (`\detokenize`) if it has characters that LaTeX does not know. -/
def Includes (path o out : Str) : Prop :=
  ∃ base ext, path = base ++ ext ∧ (ext = [] ∨ ∃ x, ext = '.' :: x ∧ '.' ∉ x ∧ '/' ∉ x) ∧
    ((∀ c ∈ path, c.toNat < 128) →
      out = "\\includegraphics".toList ++ o ++ "{{".toList ++ base ++ "}".toList ++ ext ++ "}".toList) ∧
    ((∃ c ∈ path, 128 ≤ c.toNat) →
      out = "\\includegraphics".toList ++ o ++ "{{\\detokenize{".toList ++ base ++ "}}".toList ++ ext ++ "}".toList)

/-- The parts of the width of a page that images can have, each with the percentages it is for (more than the first
number, up to the second). -/
def widths : List (Nat × Nat × Nat) := [(100, 75, 100), (75, 67, 75), (66, 50, 67), (50, 34, 50), (33, 25, 33), (25, 0, 25)]

/-- The part of the width for a percentage. -/
def PartFor (r : Option Nat) (c : Nat) : Prop := ∃ p lo hi, r = some p ∧ (c, lo, hi) ∈ widths ∧ lo < p ∧ p ≤ hi

/-- The width in LaTeX: a part of the width of the text, less a hundredth, or as it is given. -/
def TexWidth (r : Option Nat) (w t : Str) : Prop :=
  (∀ c, PartFor r c → t = "0.".toList ++ (toString (c - 1)).toList ++ "\\textwidth".toList) ∧ ((∀ c, ¬ PartFor r c) → t = w)

/-- An option of an image in LaTeX: its height, and its width. A width for LaTeX only is as it is given. -/
def ImgOption (parse parsePct : Str → Option PyFloat) (clsStr : PType → Str) (d : ADict) (n : Str) (v : AVal) : Prop :=
  n = "height".toList ∧ valueFor d "tex".toList n = some v ∨
  n = "width".toList ∧ (d.get? "width.tex".toList = some v ∨ d.get? "width.tex".toList = none ∧
    ((∃ w r t, d.get? "width".toList = some (.str w) ∧ percentage parse parsePct (.str w) = some r ∧ TexWidth r w t ∧
      v = .str t) ∨ ∃ t, d.get? "width".toList = some (.pos t) ∧ v = .str (clsStr t)))

/-- The class of an image in html: the class that is given, and that of its width. -/
inductive ImgClass (parse parsePct : Str → Option PyFloat) : Option AVal → Option AVal → Option AVal → Prop
  | none (g) : ImgClass parse parsePct none g g
  | positional (t g) : ImgClass parse parsePct (some (.pos t)) g g
  | other (w r g) : percentage parse parsePct (.str w) = some r → (∀ c, ¬ PartFor r c) → ImgClass parse parsePct (some (.str w)) g g
  | alone (w r c) : percentage parse parsePct (.str w) = some r → PartFor r c →
      ImgClass parse parsePct (some (.str w)) none (some (.str ('w' :: (toString c).toList)))
  | after (w r c g) : percentage parse parsePct (.str w) = some r → PartFor r c →
      ImgClass parse parsePct (some (.str w)) (some (.str g)) (some (.str (g ++ " w".toList ++ (toString c).toList)))

end Verif.Media.Spec
