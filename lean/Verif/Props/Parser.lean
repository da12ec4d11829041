import Verif.Lemmas.Parser

/-!
# Properties of the tag parser (C01, C02)
-/

namespace Verif.Parser.Props

open Verif Verif.Parser Verif.Parser.Spec

/-- A word-character class for the examples: ASCII letters, digits and `_`. -/
def asciiWord (c : Char) : Bool := c.isAlphanum || c = '_'

/-- Verbatim-like tags for the examples. -/
def rawVerb (n : Str) : Bool := n = "v".toList || n = "code".toList

/-! ## C01 -/

/-- **C01** Parsing loses nothing: writing the parsed content back gives the
source text, character for character. -/
theorem C01_parse_lossless (isWord : Char → Bool) (raw : Str → Bool) (text : Str) (v : Val)
    (h : parse isWord raw text = .ok v) : source v = text := by
  obtain ⟨items, hi, rfl, _⟩ := parse_ok _ _ _ _ h
  rw [source_simplify]
  exact parseItems_sources _ _ _ _ _ hi

example : parse asciiWord rawVerb "a @b[x=1]{c @i{d}} @v{@b{}} @n {".toList = .ok (.list
    [.str "a ".toList,
     .tag "b".toList (some "[x=1]".toList) true
       (.list [.str "c ".toList, .tag "i".toList none true (.str "d".toList)]),
     .str " ".toList, .tag "v".toList none true (.str "@b{}".toList),
     .str " ".toList, .tag "n".toList none false (.str []), .str " {".toList]) := by rfl

/-- **C01** Text in which no `@` is followed by a letter or digit comes back
unchanged, as a string. -/
theorem C01_plain_text (isWord : Char → Bool) (raw : Str → Bool) (text : Str)
    (h : NoTag text) : parse isWord raw text = .ok (.str text) := parse_noTag _ _ _ h

example : NoTag "mail: @ home {}".toList := by
  rw [← searchOpen_none asciiWord]; decide

/-- **C01** A tag spelled in the text, behind text without tags, becomes a tag with
that name, that attribute bracket and the parse of what is between its braces,
followed by the parse of the rest. -/
theorem C01_tag_is_found (isWord : Char → Bool) (raw : Str → Bool) (pre name : Str)
    (attrs : Option Str) (body rest : Str) (inner more : Val) (hp : NoTag pre)
    (hh : IsHead isWord name attrs ('{' :: body ++ '}' :: rest))
    (hb : Balanced body) (hd : DepthLE 8 body)
    (hi : if raw name then inner = .str body else parse isWord raw body = .ok inner)
    (hm : parse isWord raw rest = .ok more) :
    ∃ v, parse isWord raw (pre ++ '@' :: name ++ attrs.getD [] ++ '{' :: body ++ '}' :: rest) =
        .ok v ∧
      top v = (if pre = [] then [] else [.str pre]) ++ .tag name attrs true inner :: top more := by
  obtain ⟨mi, hmi, rfl, tm⟩ := parse_ok _ _ _ _ hm
  have hc := parseTop_closed isWord raw pre name attrs (body ++ '}' :: rest) body rest hp
    (by simpa using hh) ⟨rfl, hb, hd⟩
  have e1 : (if raw name = true then pure (Val.str body) else parse isWord raw body) =
      Except.ok inner := by
    split at hi
    · simp [*]; rfl
    · simp [*]
  have e2 : parseTop isWord raw (pre ++ '@' :: name ++ attrs.getD [] ++ '{' :: body ++ '}' :: rest) =
      .ok ((if pre = [] then [] else [.str pre]) ++ .tag name attrs true inner :: mi) := by
    have : pre ++ '@' :: name ++ attrs.getD [] ++ '{' :: body ++ '}' :: rest =
      pre ++ '@' :: name ++ attrs.getD [] ++ '{' :: (body ++ '}' :: rest) := by simp
    rw [this, hc]
    cases hr : raw name <;> simp [hr] at e1 <;> simp [hmi, bind, Except.bind, pure, Except.pure]
    · rw [e1]
    · simpa [pure, Except.pure] using e1
  refine ⟨_, parse_of_top _ _ _ _ e2, ?_⟩
  have ts : ∀ l : List Val, Tidy l → top (simplify l) = l := by
    intro l hl
    unfold simplify
    split
    · rfl
    · rename_i v
      have h := hl.2 v (by simp)
      cases v with
      | list l' => exact absurd rfl (h.2.2 l')
      | tag => rfl
      | str s => cases s with
        | nil => simp [Val.truthy] at h
        | cons => rfl
    · rfl
  rw [ts _ (parseItems_tidy _ _ _ _ _ e2), ts _ tm]

example : NoTag "a ".toList ∧ IsHead asciiWord "b".toList (some "[x]".toList) "{c{d}} e".toList ∧
    Balanced "c{d}".toList ∧ DepthLE 8 "c{d}".toList := by
  refine ⟨by rw [← searchOpen_none asciiWord]; decide, ⟨⟨'b', [], rfl, by decide, by simp⟩, ?_, ?_, by simp⟩, ?_, ?_⟩
  · rintro a h; simp at h; subst h; exact ⟨"x".toList, rfl, by decide, by decide⟩
  · intro x r h; simp at h; rw [← h.1]; decide
  · exact ⟨by decide, forall_prefix _ _ (by decide)⟩
  · exact forall_prefix _ _ (by decide)

/-- **C51** Parsing parsed content again changes nothing, provided no tag in it has
content processing turned off. (For tags with content processing turned off
the claim is false: `C51_reparse_raw_changes`.) -/
theorem C51_reparse_idempotent_partial (isWord : Char → Bool) (raw : Str → Bool) (text : Str)
    (v : Val) (h : parse isWord raw text = .ok v)
    (hraw : ∀ n a b c, Within v (.tag n a b c) → raw n = false) :
    reparse isWord raw 30 1 v = .ok v := by
  obtain ⟨items, hi, rfl, ht⟩ := parse_ok _ _ _ _ h
  have hall : ∀ level, level + 10 < 30 → reparseAll isWord raw 30 level items = .ok items := by
    intro level hl
    refine reparseAll_items isWord raw 30 _ 9 level [] text items hi ?_ (.inl rfl) (by omega)
    intro w hw n a b c hwi
    apply hraw n a b c
    unfold simplify
    split
    · simp at hw
    · simp at hw; subst hw; exact hwi
    · exact .item _ w _ hw hwi
  unfold simplify
  split
  · simp [reparse, parse_noTag _ _ _ NoTag.nil]
  · have := hall 1 (by omega)
    simp only [reparseAll, bind, Except.bind, pure, Except.pure] at this
    split at this
    · simp at this
    · rename_i hv; simp at this; rw [hv, this]
  · rw [reparse]
    simp [hall 2 (by omega), bind, Except.bind, pure, Except.pure]

example : ∃ v, parse asciiWord (fun _ => false) "a @b{c @i{d}} e".toList = .ok v ∧
    ∀ n a b c, Within v (.tag n a b c) → (fun _ : Str => false) n = false :=
  ⟨_, rfl, by simp⟩

/-- **C51, refuted part.** When content holding a verbatim tag is parsed again (as
happens when a paragraph is made of it), the tags inside the verbatim text are
parsed after all, although parsing the text had left them alone. -/
theorem C51_reparse_raw_changes :
    ∃ text v v', parse asciiWord rawVerb text = .ok v ∧
      reparse asciiWord rawVerb 30 1 v = .ok v' ∧ v ≠ v' := by
  refine ⟨"x @code{@b{y}}".toList, _, _, rfl, rfl, ?_⟩
  simp [finish, groupStrings, groupItems, Val.truthy, joinAdj, simplify]

/-! ## C02 -/

/-- **C02** In parsed content, at every depth: what is between the braces of a tag
has properly nested braces (the closing brace of the tag is the matching one),
and a tag without braces has empty content. -/
theorem C02_content_balanced (isWord : Char → Bool) (raw : Str → Bool) (text : Str) (v : Val)
    (h : parse isWord raw text = .ok v) (n : Str) (a : Option Str) (b : Bool) (c : Val)
    (hw : Within v (.tag n a b c)) :
    (b = true → Balanced (source c)) ∧ (b = false → c = .str []) := by
  obtain ⟨items, hi, rfl, _⟩ := parse_ok _ _ _ _ h
  obtain ⟨w, hw1, hw2⟩ := within_simplify_tag _ _ _ _ _ hw
  have := parseItems_within _ _ _ _ _ hi w hw1 n a b c hw2
  exact ⟨fun hb => (this.1 hb).1, this.2.1⟩

/-- **C02** Verbatim-like tags keep their content as text. -/
theorem C02_raw_content_is_text (isWord : Char → Bool) (raw : Str → Bool) (text : Str) (v : Val)
    (h : parse isWord raw text = .ok v) (n : Str) (a : Option Str) (b : Bool) (c : Val)
    (hw : Within v (.tag n a b c)) (hr : raw n = true) : ∃ s, c = .str s := by
  obtain ⟨items, hi, rfl, _⟩ := parse_ok _ _ _ _ h
  obtain ⟨w, hw1, hw2⟩ := within_simplify_tag _ _ _ _ _ hw
  exact (parseItems_within _ _ _ _ _ hi w hw1 n a b c hw2).2.2.2 hr

/-- **C02** Parsing fails exactly when an opened tag has no matching closing brace,
where "matching" is limited to braces nested at most eight deep inside the tag
(see `C02_deep_nesting_rejected`); the error names a tag. -/
theorem C02_error_iff_unclosed_partial (isWord : Char → Bool) (raw : Str → Bool) (text : Str) :
    (∃ name, parse isWord raw text = .error (.notClosed name)) ↔ Unclosed isWord raw text := by
  constructor
  · rintro ⟨name, h⟩
    exact (unclosed_of_error isWord raw _ text _ (Nat.le_refl _) ((parse_isError _ _ _ _).1 h)).1
  · intro h
    obtain ⟨e, he⟩ := error_of_unclosed _ _ _ h
    obtain ⟨_, name, rfl⟩ := unclosed_of_error isWord raw _ text _ (Nat.le_refl _) he
    exact ⟨name, (parse_isError _ _ _ _).2 he⟩

/-- **C02** The only error parsing a text raises is the "not closed" error. -/
theorem C02_only_notClosed (isWord : Char → Bool) (raw : Str → Bool) (text : Str) (e : TagErr)
    (h : parse isWord raw text = .error e) : ∃ name, e = .notClosed name :=
  (unclosed_of_error isWord raw _ text e (Nat.le_refl _) ((parse_isError _ _ _ _).1 h)).2

example : ∃ e, parse asciiWord rawVerb "a @b{c {d}".toList = .error e := ⟨_, rfl⟩

/-- **C02** An opened tag that is never closed, behind text without tags, is
reported under its own name. -/
theorem C02_unclosed_named (isWord : Char → Bool) (raw : Str → Bool) (pre name : Str)
    (attrs : Option Str) (after : Str) (hp : NoTag pre)
    (hh : IsHead isWord name attrs ('{' :: after))
    (hc : ∀ body rest, after = body ++ '}' :: rest → ¬ Balanced body) :
    parse isWord raw (pre ++ '@' :: name ++ attrs.getD [] ++ '{' :: after) =
      .error (.notClosed name) := by
  rw [parse_isError]
  apply parseTop_unclosed _ _ _ _ _ _ hp hh
  rintro ⟨body, rest, h1, h2, _⟩
  exact hc body rest h1 h2

example : ∀ body rest, "c {d}".toList = body ++ '}' :: rest → ¬ Balanced body := by
  intro body rest h hb
  have hl := congrArg (List.count '}') h
  simp [List.count_append, List.count_cons] at hl
  rcases body with _ | ⟨c1, _ | ⟨c2, _ | ⟨c3, _ | ⟨c4, b⟩⟩⟩⟩ <;> simp at h
  obtain ⟨rfl, rfl, rfl, rfl, h⟩ := h
  cases b with
  | nil => exact absurd hb.1 (by decide)
  | cons x b => simp at h

/-- **C02, refuted part.** Properly closed tags are rejected when the braces inside
are nested nine deep. -/
theorem C02_deep_nesting_rejected :
    ∃ body, Balanced body ∧
      parse asciiWord rawVerb ("@b{".toList ++ body ++ "}".toList) =
        .error (.notClosed "b".toList) := by
  refine ⟨"{{{{{{{{{}}}}}}}}}".toList, ⟨by decide, forall_prefix _ _ (by decide)⟩, by rfl⟩

end Verif.Parser.Props
