import Verif.Model.AttrEdit
import Verif.Lemmas.Dict

/-!
# C97: making, copying and changing attributes
-/

namespace Verif.Attrs

open Verif

/-! ### Lemmas -/

theorem get?_update (items : List (Str × AVal)) (d : ADict) (k : Str) :
    Dict.get? (Dict.update d items) k = (Dict.get? (Dict.update [] items) k).or (Dict.get? d k) := by
  induction items generalizing d with
  | nil => simp [Dict.update, Dict.get?]
  | cons i is ih =>
    have e : ∀ d : ADict, Dict.update d (i :: is) = Dict.update (Dict.set d i.1 i.2) is := fun _ => rfl
    rw [e, e, ih, ih (Dict.set [] i.1 i.2), Dict.get?_set, Dict.get?_set]
    by_cases h : i.1 = k
    · simp [h]
    · simp [h, Dict.get?]

theorem update_self (d : ADict) (h : d.keys.Nodup) : Dict.update [] d = d := by
  simpa using Dict.update_append_new [] d (by simpa [Dict.keys] using h)

theorem get?_update_dict (d e : ADict) (h : e.keys.Nodup) (k : Str) :
    Dict.get? (Dict.update d e) k = (Dict.get? e k).or (Dict.get? d k) := by
  rw [get?_update, update_self e h]

section
variable (targets : List Str) (posType : Str → PType) (isWord isSpace : Char → Bool)

theorem get?_texts (ss : List Str) (d : ADict) (k : Str) :
    Dict.get? (ss.foldl (loadInto targets posType isWord isSpace) d) k =
      (ss.reverse.findSome? fun s => Dict.get? (load targets posType isWord isSpace s) k).or (Dict.get? d k) := by
  induction ss generalizing d with
  | nil => simp
  | cons s ss ih =>
    rw [List.foldl_cons, ih, List.reverse_cons, List.findSome?_append]
    have : Dict.get? (loadInto targets posType isWord isSpace d s) k =
        (Dict.get? (load targets posType isWord isSpace s) k).or (Dict.get? d k) := get?_update _ d k
    rw [this, Option.or_assoc]
    congr 1
    simp only [List.findSome?_cons, List.findSome?_nil]
    cases Dict.get? (load targets posType isWord isSpace s) k <;> rfl

/-! ### The theorems -/

/-- C97. Attributes that are made of texts, other attributes and names with values have for each name the value that comes
last: that of the names with values, or else of the other attributes, or else of the last text that has the name. -/
theorem C97_init (args : List Arg) (kwargs : ADict) (hk : kwargs.keys.Nodup) (e : Option ADict) (he : ∀ d, e = some d → d.keys.Nodup)
    (h : args.filterMap Arg.dict? = e.toList) :
    ∃ d, init targets posType isWord isSpace args kwargs = some d ∧ ∀ k, Dict.get? d k = (Dict.get? kwargs k).or
      ((e.bind fun d => Dict.get? d k).or
        ((args.filterMap Arg.text?).reverse.findSome? fun s =>
          Dict.get? (load targets posType isWord isSpace s) k)) := by
  simp only [init]
  cases e with
  | none =>
    rw [h]
    refine ⟨_, rfl, fun k => ?_⟩
    rw [get?_update_dict _ _ hk, get?_texts]
    simp [Dict.get?]
  | some e =>
    rw [h]
    refine ⟨_, rfl, fun k => ?_⟩
    rw [get?_update_dict _ _ hk, get?_update_dict _ _ (he e rfl), get?_texts]
    simp [Dict.get?]

/-- C97. Two other attributes are an exception. -/
theorem C97_init_two (args : List Arg) (kwargs d e : ADict) (l : List ADict)
    (h : args.filterMap Arg.dict? = d :: e :: l) :
    init targets posType isWord isSpace args kwargs = none := by
  simp only [init, h]

/-- C97. A copy has the same attributes in the same order, if none is named `self`. -/
theorem C97_copy (d : ADict) (hd : d.keys.Nodup) (hs : "self".toList ∉ d.keys) : copy targets posType isWord isSpace d = some d := by
  have : Dict.get? d "self".toList = none := (Dict.get?_eq_none_iff d _).mpr hs
  simp only [copy, this, if_pos, init, List.filterMap_nil, List.foldl_nil, update_self d hd]

/-- Finding: attributes with the name `self` cannot be copied, which the tags for text, figures, images and references do. -/
theorem C97_self_refuted (d : ADict) (hs : "self".toList ∈ d.keys) : copy targets posType isWord isSpace d = none := by
  have : Dict.get? d "self".toList ≠ none := fun e => (Dict.get?_eq_none_iff d _).mp e hs
  simp only [copy, this, if_false]

end

/-- C97. Adding to an attribute keeps the others and their order; a new one is the last. -/
theorem C97_append_others (d : ADict) (attr : Str) (value : Option AVal) :
    (∀ k, k ≠ attr → Dict.get? (append d attr value) k = Dict.get? d k) ∧
    (append d attr value).keys = if attr ∈ d.keys then d.keys else d.keys ++ [attr] := by
  have key : ∀ v, (∀ k, k ≠ attr → Dict.get? (Dict.set d attr v) k = Dict.get? d k) ∧
      (Dict.set d attr v).keys = if attr ∈ d.keys then d.keys else d.keys ++ [attr] := by
    intro v
    refine ⟨fun k hk => ?_, (Dict.keys_set d attr v).trans (by congr)⟩
    rw [Dict.get?_set, if_neg (Ne.symm hk)]
  cases value with
  | none => exact key _
  | some v =>
    simp only [append]
    split <;> exact key _

/-- C97. Texts that are added one after the other to a text are put behind it with spaces between. -/
theorem C97_append_texts (vs : List Str) (d : ADict) (attr cur : Str) (h : Dict.get? d attr = some (.str cur)) :
    Dict.get? (vs.foldl (fun d v => append d attr (some (.str v))) d) attr = some (.str (List.intercalate [' '] (cur :: vs))) := by
  induction vs generalizing d cur with
  | nil => simpa [List.intercalate] using h
  | cons v vs ih =>
    rw [List.foldl_cons, ih _ (cur ++ ' ' :: v)]
    · cases vs <;> simp [List.intercalate, List.intersperse]
    · simp only [append, h, AVal.repr, Dict.get?_set_self]

/-- C97. The same for an attribute that is new. -/
theorem C97_append_new (v : Str) (vs : List Str) (d : ADict) (attr : Str) (h : attr ∉ d.keys) :
    Dict.get? ((v :: vs).foldl (fun d v => append d attr (some (.str v))) d) attr = some (.str (List.intercalate [' '] (v :: vs))) := by
  rw [List.foldl_cons]
  apply C97_append_texts
  simp only [append, (Dict.get?_eq_none_iff d attr).mpr h, Dict.get?_set_self]

/-- C97. Without a value the attribute is a positional one. -/
theorem C97_append_positional (d : ADict) (attr : Str) : Dict.get? (append d attr none) attr = some (.pos .any) := by
  simp only [append, Dict.get?_set_self]

/-- The names of the classes of positional values. -/
def className : PType → String
  | .any => "PositionalValue"
  | .int => "IntPositionalValue"
  | .float => "FloatPositionalValue"
  | .string => "StringPositionalValue"

/-- Finding: a value that is added to a positional attribute is put behind the text of a Python class. -/
theorem C97_append_class_refuted (d : ADict) (attr v : Str) (t : PType) (h : Dict.get? d attr = some (.pos t)) :
    Dict.get? (append d attr (some (.str v))) attr =
      some (.str ("<class 'disseminate.utils.types.".toList ++ (className t).toList ++ "'>".toList ++ ' ' :: v)) := by
  rw [append, h]
  refine (Dict.get?_set_self ..).trans ?_
  cases t <;> rfl

/-! ### Examples -/

def exWord (c : Char) : Bool := c.isAlphanum

/-- Texts and attributes: the last value counts, and the copy has them all. -/
example : init ["tex".toList] (fun _ => .string) exWord (· = ' ')
    [.text "class=one id=a".toList, .none, .dict [("id".toList, .str "b".toList)], .text "class=two red".toList] [("x".toList, .str "1".toList)] =
    some [("class".toList, .str "two".toList), ("id".toList, .str "b".toList), ("red".toList, .pos .string), ("x".toList, .str "1".toList)] := by
  decide +kernel

example : Dict.get? (["b".toList, "c".toList].foldl (fun d v => append d "class".toList (some (.str v)))
    [("class".toList, .str "a".toList), ("id".toList, .str "x".toList)]) "class".toList = some (.str "a b c".toList) := by decide +kernel

example : "self".toList ∈ Dict.keys (load ["tex".toList] (fun _ => .string) exWord (· = ' ') "self".toList) := by decide +kernel

end Verif.Attrs
