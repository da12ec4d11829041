import Verif.Model.DocContext

/-!
# Specification of document contexts

The documents of a project form a tree. Below, what is above a document in that tree, and which histories
are meant.
-/

namespace Verif.DocContext.Spec

open Verif Verif.Context Verif.Context.Spec Verif.DocContext

/-- The entry `k` of a context has the value `v`. -/
def Entry (F : FCtx) (k : String) (v : FVal) : Prop := F.get? k.toList = some v

/-- `r` is the root document above document `i`, `n` levels up. -/
inductive Below (s : State) : Nat → Nat → Nat → Prop
  | root {i : Nat} {d : Doc} : s.docs[i]? = some d → d.parent = none → Below s i i 0
  | sub {i : Nat} {d : Doc} {p r n : Nat} : s.docs[i]? = some d → d.parent = some p → Below s p r n → Below s i r (n + 1)

/-- None of the documents above document `i` is gone. -/
inductive Held (s : State) : Nat → Prop
  | root {i : Nat} {d : Doc} : s.docs[i]? = some d → d.parent = none → Held s i
  | sub {i : Nat} {d : Doc} {p : Nat} : s.docs[i]? = some d → d.parent = some p → p ∉ s.gone → Held s p → Held s i

/-- The entries that the program keeps for itself. -/
def reserved : List String :=
  ["document", "src_filepath", "doc_id", "root_document", "is_root_document", "label_manager", "level", "paths",
   "environment", "project_root", "target_root"]

/-- What may happen: a document is created as a root document or for a document that is there, and nothing but
the loading of documents sets the entries that the program keeps for itself. -/
def Allowed (s : State) : Op → Prop
  | .create parent _ _ => ∀ p, parent = some p → p < s.docs.length ∧ p ∉ s.gone
  | .set _ k _ => ∀ r ∈ reserved, k ≠ r.toList
  | _ => True

/-- Neither a header nor a template gives the id, the level or the root flag of a document. -/
def Clean : Op → Prop
  | .load _ _ _ _ template header => ∀ k ∈ ["doc_id", "level", "is_root_document"],
      template.get? k.toList = none ∧ header.get? k.toList = none
  | _ => True

/-- The states of a project after any history whose events meet `ok`. -/
inductive Reached (W : World) (ok : Op → Prop) : State → Prop
  | start : Reached W ok ⟨[], []⟩
  | step {s s' : State} {op : Op} : Reached W ok s → Allowed s op → ok op → DocContext.step W s op = .ok s' → Reached W ok s'

/-- The default context has no entry twice and none that the program keeps for itself, but `paths`. -/
def DefaultsOk (W : World) : Prop :=
  W.defaults.keys.Nodup ∧ ∀ k ∈ reserved, k ≠ "paths" → W.defaults.get? k.toList = none

/-- The directories in which the files of a document are looked for: its own, and that of the project. -/
def ownPaths (W : World) (src : Nat) : List Value :=
  if W.dir src = W.root then [.atom (pathVal W.root)] else [.atom (pathVal (W.dir src)), .atom (pathVal W.root)]

end Verif.DocContext.Spec
