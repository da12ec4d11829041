import Verif.Model.LabelText

/-!
# Model of the constructors of figures and tables

Models `/repo/src/disseminate/tags/figs.py`, `/repo/src/disseminate/tags/table.py` and the label of a caption
(`/repo/src/disseminate/tags/{caption,label}.py`). Simplification: captions have no captions inside their text.
-/

namespace Verif.Figures

open Verif LabelText Labels

/-- What is written: captions, figures and tables with the attribute `id`, and other tags and texts. -/
inductive Item
  | caption (t : Source)
  | figure (table : Bool) (id : Option Str) (items : List Item)
  | other (items : List Item)

/-- A caption object (`tags/caption.py:33-49`, `tags/label.py:125`). The attribute `id` is in `source`. -/
structure Cap where
  source : Source
  labelId : Option Str
  kind : Option (List Str)

/-- The tags that are made. -/
inductive Made
  | caption (c : Cap)
  | figure (table : Bool) (id : Option Str) (items : List Made)
  | other (items : List Made)

/-- The kinds of the labels (`tags/figs.py:39`, `tags/table.py:32`). -/
def kindOf (table : Bool) : List Str :=
  if table then ["caption".toList, "table".toList] else ["caption".toList, "figure".toList]

mutual
/-- The body of the loop over captions (`tags/figs.py:34-46`, `tags/table.py:27-39`) with `LabelMixin.create_label`
(`tags/label.py:162-172`), at each caption of a tag in the order of `flatten`. The attribute `id` of the figure is `give`, which the first caption takes.
`none` is the exception `DuplicateLabel`. -/
def relabel (x : Ext) (sep docId : Str) (kind : List Str) (m : Manager) (give : Option Str) :
    Made → Option (Manager × Option Str × Made)
  | .caption c =>
    let id := captionId x give c.source
    match createLabel x sep docId m kind id c.source with
    | (_, none) => none
    | (m, some _) => some (m, none, .caption ⟨{ c.source with id := some id }, some id, some kind⟩)
  | .figure table fid items =>
    match relabels x sep docId kind m give items with
    | none => none
    | some (m, give, items) => some (m, give, .figure table fid items)
  | .other items =>
    match relabels x sep docId kind m give items with
    | none => none
    | some (m, give, items) => some (m, give, .other items)

/-- The loop over captions (`tags/figs.py:31-46`). -/
def relabels (x : Ext) (sep docId : Str) (kind : List Str) (m : Manager) (give : Option Str) :
    List Made → Option (Manager × Option Str × List Made)
  | [] => some (m, give, [])
  | d :: ds =>
    match relabel x sep docId kind m give d with
    | none => none
    | some (m, give, d) =>
      match relabels x sep docId kind m give ds with
      | none => none
      | some (m, give, ds) => some (m, give, d :: ds)
end

mutual
/-- The constructors (`tags/figs.py:26-46`, `tags/table.py:19-39`, `tags/caption.py:42-49`). The tags in the content are
made by the constructor of `Tag`, before the captions are looked for. -/
def make (x : Ext) (sep docId : Str) (m : Manager) : Item → Option (Manager × Made)
  | .caption t => some (m, .caption ⟨t, none, none⟩)
  | .other items =>
    match makes x sep docId m items with
    | none => none
    | some (m, items) => some (m, .other items)
  | .figure table id items =>
    match makes x sep docId m items with
    | none => none
    | some (m, items) =>
      match relabels x sep docId (kindOf table) m id items with
      | none => none
      | some (m, id, items) => some (m, .figure table id items)

/-- The tags of a content, in order. -/
def makes (x : Ext) (sep docId : Str) (m : Manager) : List Item → Option (Manager × List Made)
  | [] => some (m, [])
  | i :: is =>
    match make x sep docId m i with
    | none => none
    | some (m, d) =>
      match makes x sep docId m is with
      | none => none
      | some (m, ds) => some (m, d :: ds)
end

end Verif.Figures
