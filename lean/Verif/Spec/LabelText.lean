import Verif.Model.LabelText
import Verif.Spec.Labels

/-!
# Specification of the titles and texts of labels
-/

namespace Verif.LabelText

open Verif Verif.Labels

/-- The first sentence of a text: what comes before the first period with a space behind it, or all of it. -/
inductive FirstSentence : Str → Str → Prop
  | all (s : Str) : ¬ ". ".toList <:+: s → FirstSentence s s
  | cut (p r : Str) : ¬ ". ".toList <:+: p ++ ['.'] → FirstSentence (p ++ ". ".toList ++ r) p

/-- `t` is `s` without the periods at its start and its end. -/
def Trimmed (s t : Str) : Prop :=
  ∃ a b, s = a ++ t ++ b ∧ (∀ c ∈ a, c = '.') ∧ (∀ c ∈ b, c = '.') ∧ t.head? ≠ some '.' ∧ t.getLast? ≠ some '.'

/-- `t` is the title made of the text `s`: the lines of `s` that are not empty, with spaces in between, make one line;
the words of its first sentence, with one space in between, and without the periods around them, make the title. -/
def IsTitle (s t : Str) : Prop :=
  ∃ lines sentence pieces : List Str, ∃ first,
    lines ≠ [] ∧ (∀ l ∈ lines, '\n' ∉ l) ∧ s = ['\n'].intercalate lines ∧
    sentence = lines.filter (· ≠ []) ∧ FirstSentence ([' '].intercalate sentence) first ∧
    pieces ≠ [] ∧ (∀ w ∈ pieces, ' ' ∉ w) ∧ first = [' '].intercalate pieces ∧
    Trimmed ([' '].intercalate (pieces.filter (· ≠ []))) t

/-- The identifier that a caption has on its own: the attribute `id`, or one made of its text. -/
def ownId (hash : Str → Str) (t : Source) : Str := t.id.getD ("caption-".toList ++ hash t.text)

/-- The identifiers of the captions of a figure: the first one has that of the figure, if it has one. -/
def captionIds (hash : Str → Str) : Option Str → List Source → List Str
  | some i, _ :: ts => i :: ts.map (ownId hash)
  | _, ts => ts.map (ownId hash)

/-- The targets labels are formatted for: none, and the targets of documents. -/
def usualTargets : List (Option Str) :=
  [none, some [], some ".html".toList, some ".xhtml".toList, some ".epub".toList, some ".tex".toList, some ".pdf".toList,
   some ".txt".toList, some ".default".toList]

end Verif.LabelText
