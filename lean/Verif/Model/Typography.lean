import Verif.Model.Tags

/-!
# Model of the typography of tags

Models `/repo/src/disseminate/tags/receivers/typography.py`. The classes of characters of the regular expressions are
parameters: `sp` for `\s` (with the no-break space) and `word` for `\w`.
-/

namespace Verif.Typography

open Verif

/-- The length of `(a|b)` at the start of a text, with `a` tried first. -/
def altLen (a b : Str) (s : Str) : Option Nat :=
  if a.isPrefixOf s then some a.length else if b.isPrefixOf s then some b.length else none

/-- The length of a match of `[\s ]*(a|b)[\s ]*` at the start of a text (`typography.py:15-16`). The
classes are matched greedily; with less of the leading spaces the next character is a space, and neither `a` nor
`b` begins with one. -/
def dashLen (sp : Char → Bool) (a b : Str) (s : Str) : Option Nat :=
  let s1 := s.dropWhile sp
  match altLen a b s1 with
  | none => none
  | some n => some ((s.takeWhile sp).length + n + ((s1.drop n).takeWhile sp).length)

/-- `re.sub(rep, s)` for such an expression, where the first `skip` characters have been matched. -/
def dashSub (sp : Char → Bool) (a b : Str) (rep : Char) : Nat → Str → Str
  | _, [] => []
  | k + 1, _ :: s => dashSub sp a b rep k s
  | 0, c :: s =>
    match dashLen sp a b (c :: s) with
    | some (m + 1) => rep :: dashSub sp a b rep m s
    | _ => c :: dashSub sp a b rep 0 s

/-- `re_emdash.sub('—', tag)` (`typography.py:46`). -/
def em (sp : Char → Bool) (s : Str) : Str := dashSub sp "---".toList "—".toList '—' 0 s

/-- `re_endash.sub('–', tag)` (`typography.py:47`). -/
def en (sp : Char → Bool) (s : Str) : Str := dashSub sp "--".toList "–".toList '–' 0 s

/-- `re.sub(rep, s)` for an expression that matches the character `q`, with conditions on the characters before
and after it (which are not replaced yet, since the conditions look at the text before the substitution). -/
def quoteSub (q rep : Char) (before after : Option Char → Bool) : Option Char → Str → Str
  | _, [] => []
  | p, c :: s => (if c = q && before p && after s.head? then rep else c) :: quoteSub q rep before after (some c) s

/-- `(?<=\w)` and `(?=\w)`. -/
def isW (word : Char → Bool) (o : Option Char) : Bool := match o with | some c => word c | none => false

/-- `(?<=\S)` and `(?=\S)`. -/
def isS (sp : Char → Bool) (o : Option Char) : Bool := match o with | some c => !sp c | none => false

/-- `re_apostrophe.sub('’', tag)` (`typography.py:17,48`). -/
def apostrophe (word : Char → Bool) (s : Str) : Str := quoteSub '\'' '’' (isW word) (isW word) none s

/-- `re_single_start.sub('‘', tag)` (`typography.py:18,49`). -/
def singleStart (sp word : Char → Bool) (s : Str) : Str := quoteSub '\'' '‘' (fun o => !isW word o) (isS sp) none s

/-- `re_single_end.sub('’', tag)` (`typography.py:19,50`). -/
def singleEnd (sp word : Char → Bool) (s : Str) : Str := quoteSub '\'' '’' (isS sp) (fun o => !isW word o) none s

/-- `re_double_start.sub('“', tag)` (`typography.py:20,51`). -/
def doubleStart (sp word : Char → Bool) (s : Str) : Str := quoteSub '"' '“' (fun o => !isW word o) (isS sp) none s

/-- `re_double_end.sub('”', tag)` (`typography.py:21,52`). -/
def doubleEnd (sp word : Char → Bool) (s : Str) : Str := quoteSub '"' '”' (isS sp) (fun o => !isW word o) none s

/-- `process_tag_typography` of a string (`typography.py:44-53`). -/
def typo (sp word : Char → Bool) (s : Str) : Str :=
  doubleEnd sp word (doubleStart sp word (singleEnd sp word (singleStart sp word (apostrophe word (en sp (em sp s))))))

mutual
/-- `process_tag_typography` (`typography.py:24-70`). `proc` tells for a class whether its attribute
`process_typography` is set. -/
def typoTree (sp word : Char → Bool) (proc : Str → Bool) : Tags.Tree → Tags.Tree
  | .str s => .str (typo sp word s)
  | .tag c t => if proc c then .tag c (typoTree sp word proc t) else .tag c t
  | .list l => .list (typoTrees sp word proc l)

/-- The loop over the elements of a list (`typography.py:63-68`). -/
def typoTrees (sp word : Char → Bool) (proc : Str → Bool) : List Tags.Tree → List Tags.Tree
  | [] => []
  | t :: l => typoTree sp word proc t :: typoTrees sp word proc l
end

end Verif.Typography
