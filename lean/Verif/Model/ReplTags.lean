import Verif.Model.Tags

/-!
# Model of the replacement of tags by text

Models `repl_tags` of `/repo/src/disseminate/tags/utils.py`. The function changes contents and lists in place; here it gives the changed
tree. Simplification: no list or tag is at two places of a tree.
-/

namespace Verif.ReplTags

open Verif Verif.Tags

mutual
/-- `repl_tags(element, tag_class, replacement)` (`tags/utils.py:62-86`), with the classes that are `tag_class` or derive from it. -/
def replTags (isClass : Str → Bool) (replacement : Str) : Tree → Tree
  | .str s => .str s
  | .tag c x => if isClass c then .str replacement else .tag c (replTags isClass replacement x)
  | .list l => .list (replItems isClass replacement l)

/-- The loop (`tags/utils.py:82-84`). -/
def replItems (isClass : Str → Bool) (replacement : Str) : List Tree → List Tree
  | [] => []
  | x :: l => replTags isClass replacement x :: replItems isClass replacement l
end

end Verif.ReplTags
