import Verif.Model.HeaderTags

/-!
# Specification of the tags of header entries
-/

namespace Verif.HeaderTags

open Verif

/-- Some order of the entries that are both in the context and in the list of entries to process. -/
structure OrderOf {T L : Type} (c : Context T L) (listed keys : List Str) : Prop where
  once : keys.Nodup
  all : ∀ k, k ∈ keys ↔ k ∈ listed ∧ ∃ v, c.entries.get? k = some v

/-- The tags made do not depend on the listed entries. (They depend on the macros, for instance, which are entries like `@name`.) -/
def Apart {T L E : Type} (make : Maker T L E) (listed : List Str) : Prop :=
  ∀ (e e' : Dict Str (Val T)) (k s : Str), (∀ j, j ∉ listed → e.get? j = e'.get? j) → make e k s = make e' k s

/-- The context has text for a listed entry. -/
def Listed {T L : Type} (c : Context T L) (listed : List Str) (k s : Str) : Prop := k ∈ listed ∧ c.entries.get? k = some (.text s)

/-- The entries of the context `c'` are those of `c`, with tags for the texts of listed entries. -/
structure Processed {T L E : Type} (make : Maker T L E) (listed : List Str) (c c' : Context T L) : Prop where
  made : ∀ k s, Listed c listed k s → ∃ t ls, make c.entries k s = .ok (t, ls) ∧ c'.entries.get? k = some (.tag t)
  kept : ∀ k, (∀ s, ¬ Listed c listed k s) → c'.entries.get? k = c.entries.get? k

end Verif.HeaderTags
