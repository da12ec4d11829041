import Verif.Model.Dict

/-!
# Model of the list utilities

Models `/repo/src/disseminate/utils/list.py`.
-/

namespace Verif.Lists

open Verif

/-- The loop of `unique_everseen` (`utils/list.py:31-48`), `seen` being the set of
keys seen so far. The branch without a key function is the one with
`key = id`. -/
def uniqLoop {α κ : Type} [DecidableEq κ] (key : α → κ) : List κ → List α → List α
  | _, [] => []
  | seen, a :: l =>
    if key a ∈ seen then uniqLoop key seen l
    else a :: uniqLoop key (key a :: seen) l

/-- `uniq(lst, key)` (`utils/list.py:8-28`). -/
def uniq {α κ : Type} [DecidableEq κ] (key : α → κ) (l : List α) : List α := uniqLoop key [] l

/-- The counting loop of `dupes` (`utils/list.py:71-74`). -/
def counts {α κ : Type} [DecidableEq κ] (key : α → κ) (l : List α) : Dict κ Nat :=
  l.foldl (fun d a => d.set (key a) ((d.get? (key a)).getD 0 + 1)) []

/-- `dupes(lst, key)` (`utils/list.py:51-79`). The lookup `counts[key(item)]` cannot
fail since every item was counted; the `getD` below is never used
(`counts_get` in `Lemmas/Lists.lean`). -/
def dupes {α κ : Type} [DecidableEq κ] (key : α → κ) (l : List α) : List α :=
  l.filter fun a => ((counts key l).get? (key a)).getD 0 > 1

/-- A Python value for the nesting utilities: a list, or something else. -/
inductive PVal (α : Type) where
  | atom (a : α)
  | list (l : List (PVal α))
deriving Repr

/-- `unwrap(lst)` (`utils/list.py:82-109`). -/
def unwrap {α : Type} : PVal α → PVal α
  | .list [v] => unwrap v
  | v => v

mutual
/-- One element of `flatten` (`utils/list.py:124-128`). -/
def flattenElem {α : Type} : PVal α → List α
  | .atom a => [a]
  | .list l => flatten l
/-- `list(flatten(lst))` (`utils/list.py:112-128`). -/
def flatten {α : Type} : List (PVal α) → List α
  | [] => []
  | v :: l => flattenElem v ++ flatten l
end

/-- `list(chunks(lst, N))` (`utils/list.py:131-147`): `range(0, len, N)` raises
`ValueError` for `N = 0` and is empty for `N < 0`. -/
def chunks {α : Type} (l : List α) : Int → Except Unit (List (List α))
  | .ofNat 0 => .error ()
  | .ofNat (n + 1) =>
    .ok ((List.range ((l.length + n) / (n + 1))).map fun k => (l.drop (k * (n + 1))).take (n + 1))
  | .negSucc _ => .ok []

/-- `transpose(lst)` (`utils/list.py:169-181`), i.e. `zip(*lst)`, which stops at the
shortest row. -/
def transpose {α : Type} : List (List α) → List (List α)
  | [] => []
  | [row] => row.map fun a => [a]
  | row :: rows => List.zipWith (· :: ·) row (transpose rows)

mutual
/-- The text hashed by `md5hash` (`utils/list.py:164-165`), `H` being
`hashlib.md5(…).hexdigest()` and atoms being given by their `str(i)`. -/
def md5text (H : Str → Str) : List (PVal Str) → Str
  | [] => []
  | v :: l => md5elem H v ++ md5text H l
def md5elem (H : Str → Str) : PVal Str → Str
  | .atom s => s
  | .list l => H (md5text H l)
end

/-- `md5hash(lst)` (`utils/list.py:150-166`). -/
def md5hash (H : Str → Str) (l : List (PVal Str)) : Str := H (md5text H l)

end Verif.Lists
