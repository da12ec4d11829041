import Verif.Model.Basic

/-!
# Model of the tag parser

Models `/repo/src/disseminate/tags/receivers/content.py` (whole file) and
`group_strings` of `/repo/src/disseminate/utils/string.py`.

`isWord` stands for the regex class `\w` (Unicode word characters); every
theorem holds for every choice of it.
-/

namespace Verif.Parser

/-- A piece of content: a string, a tag, or a Python list of pieces
(`tags/tag.py:19-34`, the `content` attribute).

`braced` is a ghost field: it remembers whether the source spelled the tag with
braces, so that the source text can be written back.  The code does not store
it, and no function below branches on it. -/
inductive Val where
  | str (s : Str)
  | tag (name : Str) (attrs : Option Str) (braced : Bool) (content : Val)
  | list (items : List Val)
deriving Repr, Inhabited

/-- `TagError`s that `parse_tags` raises (`content.py:54-57`, `content.py:125-127`). -/
inductive TagErr where
  | notClosed (name : Str)
  | maxDepth
deriving Repr, DecidableEq

/-- `[A-Za-z0-9]` in `re_open_tag` (`content.py:12`). -/
def isAlnum (c : Char) : Bool :=
  ('A' ≤ c && c ≤ 'Z') || ('a' ≤ c && c ≤ 'z') || ('0' ≤ c && c ≤ '9')

/-- The match object of `re_open_tag` (`content.py:11-14`): `pre` is the text in
front of the match, `rest` the text behind it. -/
structure OpenMatch where
  pre : Str
  name : Str
  attrs : Option Str
  opened : Bool
  rest : Str
deriving Repr, DecidableEq

/-- The optional group `(?P<attributes>\[[^\]]+\])?` (`content.py:13`). The class
excludes `]`, so a greedy match ends at the first `]` and needs no
backtracking. -/
def matchAttrs : Str → Option Str × Str
  | '[' :: cs =>
    match cs.span (· ≠ ']') with
    | (b :: body, ']' :: r) => (some ('[' :: b :: body ++ [']']), r)
    | _ => (none, '[' :: cs)
  | cs => (none, cs)

/-- The optional group `(?P<open>{)?` (`content.py:14`). -/
def matchOpenBrace : Str → Bool × Str
  | '{' :: cs => (true, cs)
  | cs => (false, cs)

/-- `re_open_tag.search(text)` (`content.py:11-14`): leftmost `@` followed by
`[A-Za-z0-9]`, then greedily `\w*`, then the two optional groups. All the
parts after the first two characters can match the empty string, so the
leftmost candidate always succeeds. -/
def searchOpen (isWord : Char → Bool) : Str → Option OpenMatch
  | '@' :: c :: cs =>
    if isAlnum c then
      let (w, r) := cs.span isWord
      let (attrs, r) := matchAttrs r
      let (opened, r) := matchOpenBrace r
      some { pre := [], name := c :: w, attrs := attrs, opened := opened, rest := r }
    else (searchOpen isWord (c :: cs)).map fun m => { m with pre := '@' :: m.pre }
  | c :: cs => (searchOpen isWord cs).map fun m => { m with pre := c :: m.pre }
  | [] => none

/-- The brace loop (`content.py:110-122`): starting behind an opening brace, with
`brace_level = level`, walk to the brace at which the loop stops.  Returns the
final `brace_level`, the text walked over and the text left.

Simplification: characters that are not braces are walked over one at a time
rather than by `re_brace.search`. The two differ only in how far `position`
has moved when no further brace exists, in which case the code raises. -/
def braceLoop : Nat → Str → Nat × Str × Str
  | level, [] => (level, [], [])
  | level, c :: cs =>
    if 0 < level ∧ level < 10 then
      let level' := if c = '}' then level - 1 else if c = '{' then level + 1 else level
      let (l, walked, rest) := braceLoop level' cs
      (l, c :: walked, rest)
    else (level, [], c :: cs)

/-- `Tag.__len__` and list/str truthiness, as used by `filter(bool, lst)`
(`tags/tag.py:124-128`, `utils/string.py:441`). -/
def Val.truthy : Val → Bool
  | .str s => !s.isEmpty
  | .tag _ _ _ (.list []) => false
  | .tag .. => true
  | .list l => !l.isEmpty

/-- Joining consecutive strings (`utils/string.py:445-453`). -/
def joinAdj : List Val → List Val
  | [] => []
  | .str s :: rest =>
    match joinAdj rest with
    | .str t :: r => .str (s ++ t) :: r
    | r => .str s :: r
  | v :: rest => v :: joinAdj rest

mutual
/-- `group_strings` (`utils/string.py:417-460`), returning the new value instead
of mutating its argument. The recursion (`utils/string.py:455-458`) is done on
the items before they are filtered and joined rather than after: recursion
leaves strings alone, and the truth value is taken from the item as it was
before the recursion, as in the code. -/
def groupStrings : Val → Val
  | .str s => .str s
  | .tag n a b c => .tag n a b (groupStrings c)
  | .list l => .list (joinAdj (groupItems l))
/-- Filter the truthy items and recurse into them. -/
def groupItems : List Val → List Val
  | [] => []
  | v :: vs => if v.truthy then groupStrings v :: groupItems vs else groupItems vs
end

/-- "Simplify the new_content list" (`content.py:158-164`). -/
def simplify : List Val → Val
  | [] => .str []
  | [v] => v
  | vs => .list vs

/-- The end of `parse_tags` on a string (`content.py:155-166`). -/
def finish (vs : List Val) : Val :=
  match groupStrings (.list vs) with
  | .list vs => simplify vs
  | v => v

/-- `parse_tags` on a string together with the tags it creates
(`content.py:80-166`). `tag_factory.tag` (`tags/tag.py:388-393`) creates the tag
from the inner text, and creating it runs `process_content` on it
(`content.py:18-24`), a fresh `parse_tags` call, unless the class of the tag
turns content processing off (`tags/signals.py:23-31`); `raw` says which names
do.

`parseItems` returns `new_content` as it is just before `group_strings`. The
fuel argument bounds the recursion; `parse` below supplies enough of it
(`parseItems_fuel` in `Lemmas/Parser.lean`).

Not modelled here: the other receivers run at creation (hash, macros,
typography, paragraphs) and classes that override `__init__`. -/
def parseItems (isWord : Char → Bool) (raw : Str → Bool) :
    Nat → Str → Except TagErr (List Val)
  | 0, _ => .error .maxDepth
  | fuel + 1, text =>
    match searchOpen isWord text with
    | none => .ok (if text = [] then [] else [.str text])
    | some m =>
      let (level, walked, rest) :=
        if m.opened then braceLoop 1 m.rest else (0, [], m.rest)
      if level > 0 then .error (.notClosed m.name)
      else do
        let inner := walked.dropLast
        let content ←
          if raw m.name then pure (.str inner)
          else finish <$> parseItems isWord raw fuel inner
        let more ← parseItems isWord raw fuel rest
        pure ((if m.pre = [] then [] else [.str m.pre]) ++
          .tag m.name m.attrs m.opened content :: more)

/-- `parse_tags(content=text)` for a string `text` (`content.py:27-166`). -/
def parse (isWord : Char → Bool) (raw : Str → Bool) (text : Str) : Except TagErr Val :=
  finish <$> parseItems isWord raw (text.length + 1) text

mutual
/-- `parse_tags(content, level)` for any content (`content.py:53-166`):
strings are parsed, lists and the contents of tags are mapped over with the
level increased, and the level is limited by `settings.tag_max_depth`
(`maxLevel`, 30). Note that `process_content = False` is *not* consulted here. -/
def reparse (isWord : Char → Bool) (raw : Str → Bool) (maxLevel : Nat) :
    Nat → Val → Except TagErr Val
  | level, .str s => if level ≥ maxLevel then .error .maxDepth else parse isWord raw s
  | level, .tag n a b (.list l) =>
    if level ≥ maxLevel then .error .maxDepth
    else do return .tag n a b (.list (← reparseAll isWord raw maxLevel (level + 1) l))
  | level, .tag n a b c =>
    if level ≥ maxLevel then .error .maxDepth
    else do return .tag n a b (← reparse isWord raw maxLevel (level + 1) c)
  | level, .list l =>
    if level ≥ maxLevel then .error .maxDepth
    else do return .list (← reparseAll isWord raw maxLevel (level + 1) l)
/-- `list(map(parse, content))` (`content.py:69`, `content.py:72`). -/
def reparseAll (isWord : Char → Bool) (raw : Str → Bool) (maxLevel : Nat) :
    Nat → List Val → Except TagErr (List Val)
  | _, [] => .ok []
  | level, v :: vs => do
    let v' ← reparse isWord raw maxLevel level v
    return v' :: (← reparseAll isWord raw maxLevel level vs)
end

end Verif.Parser
