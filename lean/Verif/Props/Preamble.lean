import Verif.Lemmas.Preamble

/-! # C72: the authors, titles and labels of documents -/

namespace Verif.Preamble

open Verif Verif.Paths Verif.Preamble.Spec
open Verif.Utils (asciiSp)

variable (sp : Char → Bool)

/-- C72. The names of a list of authors are shown in a sentence. -/
theorem C72_listed (names : List Str) : authorString sp (.list (names.map .text)) = some (listed names) :=
  authorString_texts sp names

/-- C72. The authors written in an authors tag are shown, whatever the header says. -/
theorem C72_own (names : List Str) (s : Str) (author others : Option Content) (h : Written sp names s) (hb : ∃ c ∈ s, sp c = false) :
    authorString sp (authors sp (.text s) author others) = some (listed names) := by
  have hs : strip sp s ≠ [] := by
    obtain ⟨c, hc, hsp⟩ := hb
    obtain ⟨a, b, e, h1, -⟩ := strip_says sp s
    intro h0
    rw [h0, List.append_nil] at e
    rw [e] at hc
    rw [h1 c hc] at hsp
    cases hsp
  unfold authors
  simp only [hs, decide_false]
  rw [if_neg (by simp)]
  simp only [strToList_written sp names s h, authorString_texts]

/-- C72. An authors tag with nothing in it shows the authors of the header: those of the entry `author`, and without it those of the
entry `authors`. Without both it shows nothing. -/
theorem C72_header (content : Content) (hb : content = .none ∨ ∃ s, content = .text s ∧ ∀ c ∈ s, sp c = true)
    (names : List Str) (s : Str) (h : Written sp names s) :
    (∀ others, authorString sp (authors sp content (some (.text s)) others) = some (listed names)) ∧
    authorString sp (authors sp content none (some (.text s))) = some (listed names) ∧
    (∀ others, authorString sp (authors sp content (some (.list (names.map .text))) others) = some (listed names)) ∧
    authorString sp (authors sp content none (some (.list (names.map .text)))) = some (listed names) ∧
    authorString sp (authors sp content none none) = some [] := by
  have hbl : ∀ a o, authors sp content a o = authors sp .none a o := by
    intro a o
    rcases hb with rfl | ⟨t, rfl, ht⟩
    · rfl
    · have : strip sp t = [] := by
        apply says_strip
        exact ⟨t, [], by simp, by simpa using ht, by simp, by simp⟩
      unfold authors
      simp [this]
  have hs := strToList_written sp names s h
  refine ⟨fun o => ?_, ?_, fun o => ?_, ?_, ?_⟩ <;> rw [hbl] <;> unfold authors
  · simp only [if_true, hs, authorString_texts]
  · simp only [if_true, Option.getD, hs, authorString_texts]
  · simp only [if_true, authorString_texts]
  · simp only [if_true, Option.getD, authorString_texts]
  · rfl

/-- Three names with commas, two with a semicolon, and one. -/
example : Written asciiSp ["Ann".toList, "Bo".toList, "Cy".toList] "Ann, Bo,Cy".toList ∧
    listed ["Ann".toList, "Bo".toList, "Cy".toList] = "Ann, Bo and Cy".toList ∧
    authorString asciiSp (authors asciiSp (.text "Ann, Bo,Cy".toList) none none) = some "Ann, Bo and Cy".toList ∧
    authorString asciiSp (authors asciiSp .none none (some (.text "Ann A., Jr.; Bo".toList))) = some "Ann A., Jr. and Bo".toList ∧
    authorString asciiSp (authors asciiSp (.text " ".toList) (some (.text "Ann".toList)) none) = some "Ann".toList := by
  refine ⟨?_, by decide, by decide, by decide, by decide⟩
  refine Written.commas ["Ann".toList, " Bo".toList, "Cy".toList] _ (by decide) ⟨rfl, ?_⟩ (by decide)
  intro i p e hp he
  match i, hp, he with
  | 0, hp, he =>
    obtain rfl : "Ann".toList = p := Option.some.inj hp
    obtain rfl : "Ann".toList = e := Option.some.inj he
    exact ⟨[], [], by decide, by decide, by decide, by decide⟩
  | 1, hp, he =>
    obtain rfl : " Bo".toList = p := Option.some.inj hp
    obtain rfl : "Bo".toList = e := Option.some.inj he
    exact ⟨[' '], [], by decide, by decide, by decide, by decide⟩
  | 2, hp, he =>
    obtain rfl : "Cy".toList = p := Option.some.inj hp
    obtain rfl : "Cy".toList = e := Option.some.inj he
    exact ⟨[], [], by decide, by decide, by decide, by decide⟩
  | i + 3, hp, he => simp at hp

/-- C72. Names that are marked up are not shown: an authors tag with one tag in it shows nothing, not even the authors of the header, and
with text and tags in it it cannot be rendered. -/
theorem C72_markup (author others : Option Content) (l : List Item) (h : Item.tag ∈ l) :
    authorString sp (authors sp .other author others) = some [] ∧ authorString sp (authors sp (.list l) author others) = none := by
  refine ⟨rfl, ?_⟩
  have : texts l = none := by
    induction l with
    | nil => simp at h
    | cons x l ih =>
      cases x with
      | tag => rfl
      | text s =>
        rw [texts, ih (by simpa using h)]; rfl
  unfold authors authorString
  simp [this]

/-- C72. A project has one label for each of its documents, in the order of their inclusion. The label tells the depth of the document and
its name. -/
theorem C72_labels (slug : Str → Str) (root : Doc) :
    (project sp slug root).length = (lines root).length ∧
    ∀ (i : Nat) (l : Label) (line : List Doc), (project sp slug root)[i]? = some l → (lines root)[i]? = some line →
      ∃ d, line.getLast? = some d ∧ line.head? = some root ∧ l.docId = toStr (path d) ∧ l.id = "doc:".toList ++ slug (toStr (path d)) ∧
        l.kind = ["document".toList, "document-level-".toList ++ (toString line.length).toList] ∧ Named sp line d l.title := by
  have e := load_lines sp slug none 0 root
  refine ⟨by have := congrArg List.length e; simpa [project] using this, ?_⟩
  intro i l line hl hline
  have e' := congrArg (·[i]?) e
  simp only [List.getElem?_map] at e'
  unfold project at hl
  rw [hl, hline] at e'
  have e'' : some l = labelOf sp slug none 0 line := Option.some.inj e'
  unfold labelOf at e''
  have hh : line.head? = some root := by
    have := List.mem_of_getElem? hline
    cases root with
    | mk p t s ds =>
      rw [lines] at this
      rcases List.mem_cons.1 this with h | h
      · subst h; rfl
      · obtain ⟨x, -, rfl⟩ := List.mem_map.1 h; rfl
  cases hd : line.getLast? with
  | none => rw [hd] at e''; cases e''
  | some d =>
    rw [hd] at e''
    have := Option.some.inj e''
    subst this
    refine ⟨d, rfl, hh, rfl, rfl, ?_, ?_⟩
    · show ["document".toList, "document-level-".toList ++ (toString (0 + line.length)).toList] = _
      rw [Nat.zero_add]
    · show Named sp line d (short sp _ _ _)
      rw [Option.or_none]
      exact short_named sp line d

/-- A project with three documents; the second has a short title, the third none at all. -/
def book : Doc :=
  .mk ⟨false, ["book.dm".toList]⟩ none none
    [.mk ⟨false, ["one".toList, "ch.dm".toList]⟩ (some (.tag " One ".toList)) (some (.text "1".toList))
      [.mk ⟨false, ["one".toList, "part.dm".toList]⟩ none none []]]

/-- A subdocument without a title is not named by its file: it has the title of the document that includes it. -/
theorem C72_inherited_title : (project asciiSp id book).map (·.title) = ["book".toList, "1".toList, "One".toList] ∧
    (project asciiSp id book).map (·.kind[1]?) =
      [some "document-level-1".toList, some "document-level-2".toList, some "document-level-3".toList] := by
  constructor <;> decide

/-- Different documents may get the same label: the slug of a path forgets the directories. Here `slug` replaces what is no letter or
digit by a dash, as `slugify` does. -/
theorem C72_same_label :
    let slug : Str → Str := fun s => s.map fun c => if c.isAlphanum then c else '-'
    ((project asciiSp slug (.mk ⟨false, ["a.dm".toList]⟩ none none
      [.mk ⟨false, ["b".toList, "c.dm".toList]⟩ none none [], .mk ⟨false, ["b-c.dm".toList]⟩ none none []])).map (·.id)) =
      ["doc:a-dm".toList, "doc:b-c-dm".toList, "doc:b-c-dm".toList] := by decide

end Verif.Preamble
