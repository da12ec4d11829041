import Verif.Model.CopyFile
import Verif.Spec.Decider

/-! # Specification vocabulary for copied and saved files -/

namespace Verif.CopyFile

open Verif Verif.Decider

/-- The file `out` has the contents of the file `p`, as far as they count (for files that are no pdf: all of it). -/
def Fresh (c : Cfg) (fs : FS) (p out : Str) : Prop :=
  ∃ t, Counts c fs (.path p) t ∧ Counts c fs (.path out) t

/-- What a parameter of a copy is for the decider: a string is a path. -/
def copyInput : Param → Item
  | .path p => .path p
  | .text s => .path s
  | .other b => .other b

/-- What a parameter of a saved text is for the decider. -/
def saveInput (enc : Str → Bytes) : Param → Item
  | .path p => .path p
  | .text s => .other (enc s)
  | .other b => .other b

/-- The inputs and the output that a builder asks the decider about: its parameters (each once) and its action. -/
inductive Decides (enc : Str → Bytes) : Op → List Item → Item → Prop
  | copy (ps : List Param) (l : List Item) (out : Str) : l.Nodup → (∀ x, x ∈ l ↔ x ∈ ps.map copyInput) →
      Decides enc (.copy ps out) (l ++ [.other (enc "copy".toList)]) (.path out)
  | save (ps l : List Param) (out : Str) : l.Nodup → (∀ x, x ∈ l ↔ x ∈ ps) →
      Decides enc (.save ps out) (l.map (saveInput enc) ++ [.other (enc "save".toList)]) (.path out)
  | other (is : List Item) (o : Item) : Decides enc (.other is o true) is o

/-- Among what happened there is nothing that the decider cannot tell from a copy of one file: the text "copy" was not saved, no
other builder recorded a text with the word copy, and no file that is no pdf was copied to a pdf or the other way round. -/
structure Plain (c : Cfg) (enc : Str → Bytes) (w0 : World) (ops : List Op) : Prop where
  save : ∀ ps out, Op.save ps out ∈ ops → Param.text "copy".toList ∉ ps
  copy : ∀ ps out q, Op.copy ps out ∈ ops → (∀ x ∈ ps, copyInput x = .path q) → c.isPdf q = c.isPdf out
  other : ∀ pre is o post ts s, ops = pre ++ .other is o true :: post → AllCount c (run c enc w0 pre).fs is ts →
    ¬ ts.Perm [s, enc "copy".toList]

/-- The hash does not collide on what is copied now and on what was built before. -/
def NoClash (c : Cfg) (enc : Str → Bytes) (w0 : World) (ops : List Op) (p out : Str) : Prop :=
  ∀ pre op post is o, ops = pre ++ op :: post → Decides enc op is o →
    Apart c (run c enc w0 ops).fs [.path p, .other (enc "copy".toList)] (run c enc w0 (pre ++ [op])).fs is ∧
    Apart c (run c enc w0 ops).fs [.path out] (run c enc w0 (pre ++ [op])).fs [o]

end Verif.CopyFile
