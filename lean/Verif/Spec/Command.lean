import Verif.Model.Command

/-! # Specification vocabulary for the commands of builders -/

namespace Verif.Command.Spec

open Verif Verif.Command

/-- The characters of the command lines: the space separates arguments, and visible ASCII characters do not. -/
structure Spaces (sp : Char → Bool) : Prop where
  space : sp ' ' = true
  visible : ∀ ch : Char, 33 ≤ ch.toNat → ch.toNat ≤ 126 → sp ch = false

/-- The characters that are cut off at the ends of names. -/
def Odd (ch : Char) : Prop := ch = '-' ∨ ch = '*' ∨ ch = '`'

/-- A text that has no spaces in it and does not begin or end with one of the characters `-`, `*` and `` ` ``. -/
structure Plain (c : Cfg) (s : Str) : Prop where
  nonempty : s ≠ []
  noSpace : ∀ ch ∈ s, c.sp ch = false
  first : ∀ ch, s.head? = some ch → ¬ Odd ch
  last : ∀ ch, s.getLast? = some ch → ¬ Odd ch

/-- A path with such a name, which `pathvalidate` finds valid. -/
structure PlainPath (c : Cfg) (p : Paths.Path) : Prop where
  valid : c.sanitize (Paths.toStr p) = Paths.toStr p
  plain : Plain c (Paths.toStr p)

/-- The paths that the command of a builder names. -/
def Named (c : Cfg) (t : Tool) (ins : List Paths.Path) (out : Paths.Path) : Prop :=
  (∀ p ∈ ins, PlainPath c p) ∧
  match t with
  | .latexmk | .pdflatex => PlainPath c (Paths.parent out) ∧ Plain c (Paths.stem out)
  | _ => PlainPath c out

/-- The options of `pdf-crop-margins`. -/
def cropped (o : Options) : List Str :=
  (match o.offset with
    | .four l => "-a4".toList :: l.map fun n => (toString n).toList
    | _ => []) ++
  (match o.crop with
    | .one n => ["-p".toList, (toString n).toList]
    | .four l => "-p4".toList :: l.map fun n => (toString n).toList
    | .unset => [])

/-- The command that a builder should run: the program, its options, and the output and input files, each of them one argument. -/
def command (t : Tool) (o : Options) (ins : List Str) (out dir job : Str) : List Str :=
  match t with
  | .pdfcrop => ["pdf-crop-margins".toList] ++ cropped o ++ ["-o".toList, out] ++ ins
  | .pdf2svg => ["pdf2svg".toList] ++ ins ++ [out]
  | .asy => ["asy".toList, "-safe".toList, "-f".toList, "pdf".toList, "-o".toList, out] ++ ins
  | .scalesvg => ["rsvg-convert".toList, "-z".toList, o.scale, "-f".toList, "svg".toList, "-o".toList, out] ++ ins
  | .latexmk => ["latexmk".toList, "-pdf".toList, "-norc".toList, "-f".toList, "-bibtex-".toList, "-jobname=".toList ++ job,
      "-output-directory=".toList ++ dir] ++ ins
  | .pdflatex => ["pdflatex".toList, "-interaction=nonstopmode".toList, "-halt-on-error".toList, "-output-directory=".toList ++ dir,
      "-jobname=".toList ++ job] ++ ins
  | .convert => ["convert".toList] ++ ins ++ [out]

/-- The files among the parameters, in order and each of them once. -/
def files (ps : List Param) : List Paths.Path :=
  ps.foldl (fun l p => match p with | .file q => if q ∈ l then l else l ++ [q] | _ => l) []

/-- The first parameter with the name has the value. -/
def First (ps : List Param) (name : Str) (v : Value) : Prop :=
  ∃ a b, ps = a ++ .pair name v :: b ∧ ∀ w, Param.pair name w ∉ a

/-- A value as a number, written as a float. -/
inductive Number (c : Cfg) : Value → Str → Prop
  | int (n : Int) : Number c (.int n) (c.floatInt n)
  | float (s : Str) : Number c (.float s) s
  | str (s t : Str) : c.floatOf s = some t → Number c (.str s) t

/-- A crop or an offset: an integer for all sides, or one for each of the four. -/
inductive Sides : Value → Validators.Setting → Prop
  | one (n : Int) : n ≠ 0 → Sides (.int n) (.one n)
  | four (l : List Int) : l.length = 4 → Sides (.tuple l) (.four l)

/-- No name in the command has a space, whatever else is in it. -/
def NoSpaces (c : Cfg) (t : Tool) (ins : List Paths.Path) (out : Paths.Path) : Prop :=
  (∀ p ∈ ins, ∀ ch ∈ c.sanitize (Paths.toStr p), c.sp ch = false) ∧
  match t with
  | .latexmk | .pdflatex => (∀ ch ∈ c.sanitize (Paths.toStr (Paths.parent out)), c.sp ch = false) ∧ ∀ ch ∈ Paths.stem out, c.sp ch = false
  | _ => ∀ ch ∈ c.sanitize (Paths.toStr out), c.sp ch = false

end Verif.Command.Spec
