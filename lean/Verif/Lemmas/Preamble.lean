import Verif.Lemmas.Render
import Verif.Lemmas.LabelText
import Verif.Lemmas.Paths
import Verif.Lemmas.Scanner
import Verif.Props.StrParse
import Verif.Spec.Preamble

/-! # Lemmas about titles and authors -/

namespace Verif.Preamble

open Verif Verif.Paths Verif.Preamble.Spec
open Verif.Utils (strToList)

theorem texts_map (l : List Str) : texts (l.map .text) = some l := by
  induction l with
  | nil => rfl
  | cons a l ih => simp [texts, ih]

theorem join_pair (sep a b : Str) : join sep [a, b] = a ++ sep ++ b := rfl

theorem listed_long (l : List Str) (h : 3 ≤ l.length) :
    listed l = join ", ".toList (l.take (l.length - 2)) ++ ", ".toList ++ join " and ".toList (l.drop (l.length - 2)) := by
  induction l with
  | nil => simp at h
  | cons a l ih =>
    match l, h with
    | [b, c], _ =>
      show a ++ ", ".toList ++ (b ++ " and ".toList ++ c) = a ++ ", ".toList ++ (b ++ " and ".toList ++ c)
      rfl
    | b :: c :: e :: l, _ =>
      have e0 : listed (a :: b :: c :: e :: l) = a ++ ", ".toList ++ listed (b :: c :: e :: l) := rfl
      rw [e0, ih (by simp)]
      have e1 : (a :: b :: c :: e :: l).length - 2 = (b :: c :: e :: l).length - 2 + 1 := by simp
      rw [e1, List.take_succ_cons, List.drop_succ_cons]
      have e2 : (b :: c :: e :: l).take ((b :: c :: e :: l).length - 2) ≠ [] := by simp
      rw [join_cons _ _ _ e2]
      simp only [List.append_assoc]

theorem authorString_texts (sp : Char → Bool) (l : List Str) : authorString sp (.list (l.map .text)) = some (listed l) := by
  unfold authorString
  simp only [texts_map]
  match l with
  | [] => rfl
  | [a] => rfl
  | [a, b] => rfl
  | a :: b :: c :: l =>
    rw [if_neg (by simp), if_neg (by simp), if_neg (by simp), listed_long _ (by simp)]

theorem says_strip (sp : Char → Bool) (t r : Str) (h : Says sp (.tag t) r) : strip sp t = r := by
  obtain ⟨a, b, e, h1, h2, h3⟩ := h
  rw [e]
  exact Scanner.strip_eq sp a r b h1 h2 h3

theorem strip_says (sp : Char → Bool) (t : Str) : Says sp (.tag t) (strip sp t) := by
  obtain ⟨a, b, e, h1, h2, h3, h4⟩ := Render.strip_trimmed sp t
  refine ⟨a, b, e, ?_, h3, h4⟩
  intro c hc
  rcases List.mem_append.1 hc with h | h
  · exact h1 c h
  · exact h2 c h

theorem str_says (sp : Char → Bool) (t : Title) : Says sp t (t.str sp) := by
  cases t with
  | text s => rfl
  | tag t => exact strip_says sp t

theorem padded_map (sp : Char → Bool) (ps es : List Str) (h : Padded sp ps es) : ps.map (strip sp) = es := by
  apply List.ext_getElem?
  intro i
  rw [List.getElem?_map]
  cases hp : ps[i]? with
  | none =>
    have := List.getElem?_eq_none_iff.1 hp
    rw [h.1] at this
    rw [List.getElem?_eq_none this]; rfl
  | some p =>
    have hi := (List.getElem?_eq_some_iff.1 hp).1
    rw [h.1] at hi
    rw [List.getElem?_eq_getElem hi]
    exact congrArg some (says_strip sp p _ (h.2 i p _ hp (List.getElem?_eq_getElem hi)))

theorem strToList_written (sp : Char → Bool) (es : List Str) (s : Str) (h : Written sp es s) : strToList sp s = es := by
  cases h with
  | one s h1 h2 h3 => exact Utils.C37_single sp s ⟨h1, h2, h3⟩
  | semicolons ps es h2 hp h =>
    rw [← LabelText.join_eq_intercalate, Utils.C37_semicolons sp ps h2 h, padded_map sp ps es hp]
  | lines ps es h2 hp h hn =>
    have hm := padded_map sp ps es hp
    have hf : (ps.filter fun p => decide (strip sp p ≠ [])) = ps := by
      rw [List.filter_eq_self]
      intro p hp'
      have : strip sp p ∈ es := by rw [← hm]; exact List.mem_map_of_mem hp'
      simpa using hn _ this
    rw [← LabelText.join_eq_intercalate,
      Utils.C37_lines sp ps h (by rintro rfl; simp at h2) (by rw [hf]; exact h2), hf, hm]
  | commas ps es h2 hp h =>
    rw [← LabelText.join_eq_intercalate, Utils.C37_commas sp ps h2 h, padded_map sp ps es hp]

/-! ### Labels -/

/-- The label of the document at the end of a line, below a context with an inherited title and a level. -/
def labelOf (sp : Char → Bool) (slug : Str → Str) (inherited : Option Title) (level : Nat) (line : List Doc) : Option Label :=
  line.getLast?.map fun d =>
    label sp slug ((line.reverse.findSome? own).or inherited) (ownShort d) (level + line.length) (path d)

theorem linesAll_ne (ds : List Doc) : ∀ l ∈ linesAll ds, l ≠ [] := by
  induction ds with
  | nil => simp [linesAll]
  | cons d ds ih =>
    intro l hl
    rw [linesAll, List.mem_append] at hl
    rcases hl with h | h
    · cases d with
      | mk p t s subs =>
        rw [lines] at h
        rcases List.mem_cons.1 h with h | h
        · subst h; simp
        · obtain ⟨x, -, rfl⟩ := List.mem_map.1 h; simp
    · exact ih l h

theorem labelOf_cons (sp : Char → Bool) (slug : Str → Str) (inherited : Option Title) (level : Nat) (d : Doc) (l : List Doc)
    (h : l ≠ []) : labelOf sp slug inherited level (d :: l) = labelOf sp slug ((own d).or inherited) (level + 1) l := by
  unfold labelOf
  have e1 : (d :: l).getLast? = l.getLast? := by
    cases l with
    | nil => exact absurd rfl h
    | cons a l => simp [List.getLast?_cons_cons]
  have e2 : (d :: l).reverse.findSome? own = (l.reverse.findSome? own).or (own d) := by
    rw [List.reverse_cons, List.findSome?_append]
    congr 1
    cases ho : own d <;> simp [ho]
  have e3 : level + (d :: l).length = level + 1 + l.length := by simp; omega
  rw [e1, e2, e3, Option.or_assoc]

mutual
theorem load_lines (sp : Char → Bool) (slug : Str → Str) (inherited : Option Title) (level : Nat) (d : Doc) :
    (load sp slug inherited level d).map some = (lines d).map (labelOf sp slug inherited level) := by
  cases d with
  | mk p t s ds =>
    rw [load, lines, List.map_cons, List.map_cons, List.map_map]
    congr 1
    · show _ = some _
      simp [own, ownShort, path, List.findSome?]
    · rw [loadAll_lines sp slug (t.or inherited) (level + 1) ds]
      apply List.map_congr_left
      intro l hl
      exact (labelOf_cons sp slug inherited level (.mk p t s ds) l (linesAll_ne ds l hl)).symm
theorem loadAll_lines (sp : Char → Bool) (slug : Str → Str) (inherited : Option Title) (level : Nat) (ds : List Doc) :
    (loadAll sp slug inherited level ds).map some = (linesAll ds).map (labelOf sp slug inherited level) := by
  cases ds with
  | nil => rfl
  | cons d ds =>
    rw [loadAll, linesAll, List.map_append, List.map_append, load_lines sp slug inherited level d,
      loadAll_lines sp slug inherited level ds]
end

theorem short_named (sp : Char → Bool) (line : List Doc) (d : Doc) :
    Named sp line d (short sp (line.reverse.findSome? own) (ownShort d) (path d)) := by
  unfold Named short
  cases ownShort d with
  | some t => exact str_says sp t
  | none =>
    cases line.reverse.findSome? own with
    | some t => exact str_says sp t
    | none =>
      intro dirs stem ext hp hs he hd ha
      have hpath : path d = child ⟨false, dirs⟩ (stem ++ '.' :: ext) := by
        cases hq : path d with
        | mk a ps =>
          rw [hq] at hp ha
          simp only at hp ha
          subst hp; subst ha
          rfl
      have hn : name (path d) = stem ++ '.' :: ext := by rw [hpath, name_child]
      have hx : suffix (path d) = '.' :: ext := by rw [hpath, suffix_ext _ _ _ hs he hd]
      have hw : withSuffix (path d) [] = .ok ⟨false, dirs ++ [stem]⟩ := by
        unfold withSuffix
        rw [if_neg (by simp), if_neg (by simp), if_neg (by rw [hn]; simp), hn, hx, hp, ha]
        simp
      show toStr (match withSuffix (path d) [] with | .ok p => p | .error _ => path d) = _
      rw [hw]
      unfold toStr
      simp [LabelText.join_eq_intercalate]

end Verif.Preamble
