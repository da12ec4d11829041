import Verif.Model.Paths

/-!
# Model of the scanners for dependencies

Models `/repo/src/disseminate/builders/scanners/scanner.py` and `/repo/src/disseminate/builders/scanners/html_scanner.py`.

A regular expression is a function from a text to the list of its matches at the start of the text, in the order in which a
backtracking engine tries them; a match is what was consumed and the rest. The first match is the one the engine gives.
-/

namespace Verif.Scanner

open Verif Verif.Paths

/-- A regular expression (see above). -/
abbrev Re := Str → List (Str × Str)

/-- A character of a class. -/
def cls (p : Char → Bool) : Re
  | [] => []
  | c :: t => if p c then [([c], t)] else []

/-- A literal text. -/
def lit (w : Str) : Re := fun s => if w.isPrefixOf s then [(w, s.drop w.length)] else []

/-- `[..]*`. -/
def star (p : Char → Bool) : Re
  | [] => [([], [])]
  | c :: t => (if p c then (star p t).map fun m => (c :: m.1, m.2) else []) ++ [([], c :: t)]

/-- `[..]*?`. -/
def lazyStar (p : Char → Bool) : Re
  | [] => [([], [])]
  | c :: t => ([], c :: t) :: (if p c then (lazyStar p t).map fun m => (c :: m.1, m.2) else [])

/-- One after the other. -/
def seq (a b : Re) : Re := fun s => (a s).flatMap fun m => (b m.2).map fun m' => (m.1 ++ m'.1, m'.2)

/-- `[..]+`. -/
def plus (p : Char → Bool) : Re := seq (cls p) (star p)

/-- `(?:..)?`. -/
def opt (a : Re) : Re := fun s => a s ++ [([], s)]

/-- The classes `["'\s{]` and `["']`. -/
def opening (sp : Char → Bool) (c : Char) : Bool := c = '"' || c = '\'' || sp c || c = '{'

def quote (c : Char) : Bool := c = '"' || c = '\''

/-- The part of the regular expressions in front of the group, `<link\s+(?:[^>]*?\s+)?href=\s*["'\s{]+` and
`<img\s+(?:[^>]*?\s+)?src=\s*["'\s{]+` (`html_scanner.py:12-15`, `html_scanner.py:20-23`). -/
def before (sp : Char → Bool) (tag key : Str) : Re :=
  seq (lit tag) (seq (plus sp) (seq (opt (seq (lazyStar (· ≠ '>')) (plus sp))) (seq (lit key) (seq (star sp) (plus (opening sp))))))

/-- A match of `_re_html_link` or `_re_html_img` at the start of a text (`html_scanner.py:12-23`): the group, and the rest of the text. -/
def linkAt (sp : Char → Bool) (tag key : Str) (s : Str) : Option (Str × Str) :=
  ((before sp tag key s).flatMap fun m => (lazyStar (· ≠ '\n') m.2).flatMap fun g => (cls quote g.2).map fun q => (g.1, q.2)).head?

/-- The groups of `finditer` (`html_scanner.py:38-41`); `n` is at least the length of the text. -/
def links (sp : Char → Bool) (tag key : Str) : Nat → Str → List Str
  | 0, _ => []
  | _, [] => []
  | n + 1, c :: t =>
    match linkAt sp tag key (c :: t) with
    | some (g, rest) => g :: links sp tag key n rest
    | none => links sp tag key n t

/-- A text is part of another (`in`). -/
def contains (w : Str) : Str → Bool
  | [] => w.isEmpty
  | c :: t => w.isPrefixOf (c :: t) || contains w t

/-- `HtmlScanner.scan_function` (`html_scanner.py:31-48`). -/
def stubs (sp : Char → Bool) (content : Str) : List Str :=
  (links sp "<link".toList "href=".toList content.length content ++ links sp "<img".toList "src=".toList content.length content).filter
    fun l => !contains "://".toList l

/-- An exception of Python. -/
inductive Err
  | fileNotFound | indexError | attributeError | path (e : PathError)
deriving Repr, DecidableEq

/-- The files that can be read: their text, by location. -/
abbrev Files := Path → Option Str

/-- The lookup of a stub (`scanner.py:100-116`). -/
def lookup (files : Files) (raise : Bool) (root dir : Path) (stub : Str) : Except Err SourcePath :=
  let stub := strip (fun c => c = '/') stub
  match mkSource (toStr root) (toStr (div dir (parse stub))), mkSource (toStr root) stub with
  | .ok a, .ok b =>
    if (files a.full).isSome then .ok a
    else if (files b.full).isSome then .ok b
    else if raise then .error .fileNotFound
    else .error .indexError
  | .error e, _ => .error (.path e)
  | _, .error e => .error (.path e)

/-- The lookups for the stubs of a file, in order. -/
def lookups (files : Files) (raise : Bool) (root dir : Path) : List Str → Except Err (List SourcePath)
  | [] => .ok []
  | s :: ss =>
    match lookup files raise root dir s with
    | .error e => .error e
    | .ok p =>
      match lookups files raise root dir ss with
      | .error e => .error e
      | .ok ps => .ok (p :: ps)

/-- The root, with the target, and the subpath of a parameter (`scanner.py:92-98`). -/
def rootOf : PyPath → Option (Path × Path)
  | .source s => some (s.root, s.sub)
  | .target t => some (div t.root t.target, t.sub)
  | _ => none

/-- The extensions of `HtmlScanner` (`html_scanner.py:29`), which is the only scanner. -/
def extensions : List Str := [".html".toList, ".htm".toList, ".xhtml".toList]

/-- The scan of one parameter (`scanner.py:67-116`). -/
def scanOne (sp : Char → Bool) (files : Files) (raise : Bool) (p : PyPath) : Except Err (List SourcePath) :=
  match p with
  | .plain _ => .ok []
  | p =>
    if suffix p.full ∉ extensions then .ok []
    else match files p.full with
      | none => .ok []
      | some text =>
        let found := stubs sp text
        match rootOf p with
        | none => .error .attributeError
        | some (root, sub) => lookups files raise root (parent sub) found

/-- `Scanner.scan` (`scanner.py:41-118`). -/
def scan (sp : Char → Bool) (files : Files) (raise : Bool) : List PyPath → Except Err (List SourcePath)
  | [] => .ok []
  | p :: ps =>
    match scanOne sp files raise p with
    | .error e => .error e
    | .ok l =>
      match scan sp files raise ps with
      | .error e => .error e
      | .ok ls => .ok (l ++ ls)

end Verif.Scanner
