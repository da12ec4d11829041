/-!
# Shared conventions of the model

Python `str` values are modelled as `List Char` (abbreviated `Str`), Python
`list` values as `List`, and a raised exception as the `error` side of
`Except`.  A position `position` in a Python text is represented by the suffix
`text[position:]`; the two carry the same information because the code only
ever looks at `text[position:]`.
-/

namespace Verif

/-- A Python string. -/
abbrev Str := List Char

end Verif
