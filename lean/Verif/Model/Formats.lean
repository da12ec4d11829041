import Verif.Model.Attributes
import Verif.Model.Strings

/-!
# Formatting in LaTeX and html

Model of `src/disseminate/formats/tex.py`, of `xhtml_tag` in `src/disseminate/formats/xhtml.py`, and of the width
functions of `src/disseminate/tags/utils.py`.

Not modelled: the serialisation of elements by lxml (an element is a record of its name, attributes and contents), the
parsing of markup into elements, namespaces, and the rounding of floats (numbers are rationals).
-/

namespace Verif.Formats

open Verif Verif.Attrs

/-- The target suffixes (`settings.py:248-255`) are a parameter, as for the attributes. -/
abbrev Targets := List Str

/-- A table of allowed names and their attributes (`settings.py`). -/
abbrev Table := Dict Str (List Query)

/-- `TexFormatError`. -/
inductive TexErr
  | notAllowed
  | arguments
deriving Repr, DecidableEq

/-- `"tex"`. -/
def texTarget : Str := "tex".toList

/-- The required arguments of a command or environment (`tex.py:50-64`, `:130-146`). -/
def requiredStr (targets : Targets) (args : Table) (name : Str) (d : ADict) : Except TexErr Str :=
  match args.get? name with
  | some attrs =>
    let reqs := Attrs.filter targets d (some attrs) (some texTarget) (sortByAttrs := true)
    if reqs.length ≠ attrs.length then .error .arguments else .ok (texArguments reqs)
  | none => .ok []

/-- The optional arguments of a command or environment (`tex.py:66-72`, `:148-155`). -/
def optionalStr (targets : Targets) (opts : Table) (name : Str) (d : ADict) (sortByAttrs : Bool) : Str :=
  match opts.get? name with
  | some attrs => texOptionals (Attrs.filter targets d (some attrs) (some texTarget) (sortByAttrs := sortByAttrs))
  | none => []

/-- `tex_cmd` (`tex.py:15-89`) for an attributes dict, without indentation; the content is `none` if it is not a
string. -/
def texCmd (targets : Targets) (args opts : Table) (cmd : Str) (d : ADict) (content : Option Str) : Except TexErr Str :=
  if !args.has cmd && !opts.has cmd then .error .notAllowed else
  match requiredStr targets args cmd d with
  | .error e => .error e
  | .ok reqs =>
    let c := match content with
      | some s => '{' :: s ++ ['}']
      | none => []
    .ok ('\\' :: cmd ++ reqs ++ optionalStr targets opts cmd d false ++ c)

/-- `'\n' + s if not s.startswith('\n') else s` (`tex.py:157-161`). -/
def leadNewline (s : Str) : Str :=
  match s with
  | '\n' :: _ => s
  | _ => '\n' :: s

/-- `s + '\n' if not s.endswith('\n') else s` (`tex.py:162-164`). -/
def trailNewline (s : Str) : Str := if s.getLast? = some '\n' then s else s ++ ['\n']

/-- `tex_env` (`tex.py:92-182`) for an attributes dict, without indentation. -/
def texEnv (targets : Targets) (args opts : Table) (env : Str) (d : ADict) (content : Str) (minNewlines : Bool) :
    Except TexErr Str :=
  if !args.has env && !opts.has env then .error .notAllowed else
  match requiredStr targets args env d with
  | .error e => .error e
  | .ok reqs =>
    let text := "\\begin{".toList ++ env ++ ['}'] ++ reqs ++ optionalStr targets opts env d true ++
      (if minNewlines then " %".toList else []) ++ trailNewline (leadNewline content) ++ "\\end{".toList ++ env ++ ['}']
    .ok (if minNewlines then text else '\n' :: text ++ ['\n'])

/-- `tex_verb` (`tex.py:185-206`). -/
def texVerb (s : Str) : Str :=
  if '|' ∉ s then "\\verb|".toList ++ s ++ ['|']
  else if '!' ∉ s then "\\verb!".toList ++ s ++ ['!']
  else if '^' ∉ s then "\\verb^".toList ++ s ++ ['^']
  else s

/-! ### Html -/

/-- The errors of `xhtml_tag`: `XHtmlFormatError`, and the errors of Python and lxml for a missing key and for a value
that is not text. -/
inductive XErr
  | arguments
  | keyError
  | typeError
deriving Repr, DecidableEq

/-- Parts of formatted contents. -/
inductive Part (α : Type)
  | text (s : Str)
  | none
  | elem (x : α)
deriving Repr, DecidableEq

/-- An element of lxml. -/
structure Elem (α : Type) where
  name : Str
  attrs : Dict Str Str
  content : List (Part α)
deriving Repr, DecidableEq

/-- The removal of empty parts (`xhtml.py:124-139`). -/
def cleanParts {α : Type} (l : List (Part α)) : List (Part α) :=
  l.filter fun
    | .text s => !s.isEmpty
    | .none => false
    | .elem _ => true

/-- `for k, v in attrs.items(): e.set(k, v)` (`xhtml.py:160-165`); lxml refuses a class as a value. -/
def setAttrs (e : Dict Str Str) : ADict → Except XErr (Dict Str Str)
  | [] => .ok e
  | (k, .str v) :: l => setAttrs (e.set k v) l
  | (_, .pos _) :: _ => .error .typeError

/-- The attributes looked up in a table: those of the name, those of `span` for a name that is not allowed
(`xhtml.py:83-94`, `:103-114`). -/
def lookupAttrs (t : Table) (allowed : Bool) (name : Str) : Option (List Query) :=
  match t.get? name with
  | some a => some a
  | none => if !allowed then t.get? "span".toList else none

/-- `xhtml_tag` (`xhtml.py:29-173`) for an attributes dict, up to the serialisation of the element. -/
def xhtmlTag {α : Type} (targets : Targets) (args opts : Table) (name : Str) (d : ADict) (target : Option Str)
    (content : List (Part α)) : Except XErr (Elem α) :=
  let allowed := args.has name || opts.has name
  let find (t : Table) := (lookupAttrs t allowed name).map fun a => Attrs.filter targets d (some a) target (sortByAttrs := true)
  let reqs := find args
  let check : Except XErr Unit := match reqs with
    | some r => match args.get? name with
      | some a => if r.length ≠ a.length then .error .arguments else .ok ()
      | none => .error .keyError
    | none => .ok ()
  match check with
  | .error e => .error e
  | .ok () =>
    let opts := find opts
    let hasClass := (reqs.getD []).has "class".toList || (opts.getD []).has "class".toList
    let other : ADict := if !allowed && !hasClass then [("class".toList, .str name)] else []
    match setAttrs [] (reqs.getD [] ++ opts.getD [] ++ other) with
    | .error e => .error e
    | .ok attrs => .ok { name := if allowed then name else "span".toList, attrs, content := cleanParts content }

/-! ### Widths -/

/-- A Python float, without rounding. -/
inductive PyFloat
  | fin (q : Rat)
  | inf
  | nan
deriving Repr

/-- Values of widths: text, or a number. -/
inductive WVal
  | str (s : Str)
  | num (x : PyFloat)

/-- `abs(ceil(value))` with `ValueError` and `TypeError` caught (`tags/utils.py:188-191`); the ceiling of an infinity
raises `OverflowError`, which is not caught: `none`. -/
def absCeil : Option PyFloat → Option (Option Nat)
  | some (.fin q) => some (some q.ceil.natAbs)
  | some .inf => none
  | some .nan => some none
  | none => some none

/-- `percentage` (`tags/utils.py:149-191`). `parse` is `float(value.strip())`; `parsePct` is
`float(value.strip().strip('%'))`. The outer `none` is the error. -/
def percentage (parse parsePct : Str → Option PyFloat) : WVal → Option (Option Nat)
  | .num x => absCeil (some x)
  | .str s =>
    if '%' ∈ s then absCeil (parsePct s)
    else absCeil ((parse s).map fun
      | .fin q => .fin (q * 100)
      | x => x)

/-- The windows of both functions (`tags/utils.py:236-242`, `:306-311`): `]lo, hi]` and the percentage stood for by the
entry. -/
def windows : List (Nat × Nat × Nat) :=
  [(100, 75, 100), (75, 67, 75), (66, 50, 67), (50, 34, 50), (33, 25, 33), (25, 0, 25)]

/-- The entry found by `xhtml_percentwidth` (`tags/utils.py:313-318`): the first that fits. -/
def htmlWidth (p : Nat) : Option Nat :=
  (windows.find? fun w => w.2.1 < p && p ≤ w.2.2).map (·.1)

/-- The entry found by `tex_percentwidth` (`tags/utils.py:244-248`): the last that fits. In the code, the entry is one
less for the spacing between (99 for 100 and so on). -/
def texWidth (p : Nat) : Option Nat :=
  windows.foldl (fun r w => if w.2.1 < p && p ≤ w.2.2 then some (w.1 - 1) else r) none

/-- The html class of a width (`tags/utils.py:306-311`). -/
def htmlClass (w : Nat) : Str := 'w' :: Nat.toDigits 10 w

/-- `xhtml_percentwidth` (`tags/utils.py:267-320`); `none` is an error: that of `percentage`, or a class that is not text. -/
def xhtmlPercentwidth (parse parsePct : Str → Option PyFloat) (targets : Targets) (d : ADict) (target : Str) :
    Option ADict :=
  match Attrs.get targets d (.name "width".toList) (some target) with
  | some (.str w) =>
    match percentage parse parsePct (.str w) with
    | none => none
    | some none => some d
    | some (some p) => match htmlWidth p with
      | some w => match d.get? "class".toList with
        | some (.str c) => some (d.set "class".toList (.str (c ++ ' ' :: htmlClass w)))
        | some (.pos _) => none
        | none => some (d.set "class".toList (.str (htmlClass w)))
      | none => some d
  | _ => some d

/-- The width of `tex_percentwidth` as text (`tags/utils.py:252`): `fit_percent_width / 100.` has two digits after the point for
the entries of the windows. -/
def texWidthStr (w : Nat) : Str := "0.".toList ++ Nat.toDigits 10 w ++ "\\textwidth".toList

/-- `tex_percentwidth` (`tags/utils.py:194-264`); `none` is the error of `percentage`. For a positional entry `width` the value is
a class, whose text (`clsStr`) is used. -/
def texPercentwidth (parse parsePct : Str → Option PyFloat) (clsStr : PType → Str) (targets : Targets) (d : ADict)
    (target : Str) (usePositional : Bool) : Option ADict :=
  let put (s : Str) : ADict := if usePositional then d.set s (.pos .string) else d.set "width".toList (.str s)
  match Attrs.get targets d (.name "width".toList) (some target) with
  | none => some d
  | some (.pos t) => some (put (clsStr t))
  | some (.str w) =>
    match percentage parse parsePct (.str w) with
    | none => none
    | some r => match r.bind texWidth with
      | some f => some (put (texWidthStr f))
      | none => some (put w)

end Verif.Formats
