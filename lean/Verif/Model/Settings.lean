import Verif.Model.Formats

/-!
# The tables of the settings

Model of the tables of `src/disseminate/settings.py` that the formatting of tags uses.
-/

namespace Verif

namespace Attrs

/-- The targets of `settings.tracked_deps` (`settings.py:247-255`). -/
def trackedTargets : List Str := ["html".toList, "xhtml".toList, "tex".toList, "css".toList]

end Attrs

namespace Formats

open Attrs

/-- A table of names of attributes. -/
def nameTable (t : Dict Str (List Str)) : Table := t.map fun e => (e.1, e.2.map .name)

/-- A table of classes of positional values. -/
def posTable (t : Dict Str (List PType)) : Table := t.map fun e => (e.1, e.2.map .pos)

/-- Commands and their required arguments: `tex_cmd_arguments` (`settings.py:364-407`). -/
def texCmdArguments : Dict Str (List PType) :=
  ["textbf", "textit", "part", "chapter", "section", "subsection", "subsubsection", "paragraph", "subparagraph",
    "part*", "chapter*", "section*", "subsection*", "subsubsection*", "maketitle", "title", "author", "today", "caption",
    "ensuremath", "marginnote", "marginpar", "item"].map (fun s => (s.toList, [])) ++
  [("setcounter".toList, [.string, .int]), ("label".toList, []), ("includegraphics".toList, []),
   ("textcolor".toList, [.string]), ("boldsymbol".toList, []), ("toprule".toList, []), ("midrule".toList, []),
   ("bottomrule".toList, []), ("hfill".toList, []), ("pageref".toList, [.string]), ("href".toList, [.string]),
   ("detokenize".toList, [])]

/-- Environments and their required arguments: `tex_env_arguments` (`settings.py:336-355`). -/
def texEnvArguments : Dict Str (List PType) :=
  [("align".toList, []), ("align*".toList, []), ("alignat".toList, [.int]), ("alignat*".toList, [.int]),
   ("center".toList, []), ("enumerate".toList, []), ("examplebox".toList, []), ("featurebox".toList, []),
   ("problembox".toList, []), ("itemize".toList, []), ("panel".toList, [.string]), ("tabular".toList, [.string]),
   ("table".toList, []), ("table*".toList, []), ("margintable".toList, []), ("toclist".toList, []), ("verbatim".toList, [])]

/-- Optional arguments of commands: `tex_cmd_optionals` (`settings.py:409-410`). -/
def texCmdOptionals : Dict Str (List Str) := [("includegraphics".toList, ["width".toList, "height".toList])]

/-- Optional arguments of environments: `tex_env_optionals` (`settings.py:357-362`). -/
def texEnvOptionals : Table :=
  [("enumerate".toList, [.pos .string, .name "label".toList]), ("easylist".toList, [.pos .string]),
   ("figure".toList, [.pos .string]), ("figure*".toList, [.pos .string]), ("marginfigure".toList, [.pos .string])]

/-- Elements of html and their required attributes: `xhtml_tag_arguments` (`settings.py:282-285`). -/
def xhtmlArguments : Dict Str (List Str) :=
  [("a".toList, ["href".toList]), ("img".toList, ["src".toList]), ("link".toList, ["rel".toList])]

/-- `epub_type` (`settings.py:289`). -/
def epubType : Str := "{http://www.idpf.org/2007/ops}type".toList

/-- Elements of html and their optional attributes: `xhtml_tag_optionals` (`settings.py:290-327`). -/
def xhtmlOptionals : Dict Str (List Str) :=
  [("a".toList, ["class".toList, "role".toList, epubType]), ("aside".toList, ["class".toList, "id".toList, epubType]),
   ("blockquote".toList, []), ("br".toList, []), ("code".toList, []), ("caption".toList, ["class".toList, "id".toList]),
   ("dd".toList, []), ("div".toList, ["class".toList, "id".toList]), ("dl".toList, []), ("dt".toList, []),
   ("em".toList, []), ("figure".toList, ["id".toList, "class".toList]), ("figcaption".toList, ["id".toList, "class".toList]),
   ("h1".toList, ["id".toList, "class".toList]), ("h2".toList, ["id".toList, "class".toList]),
   ("h3".toList, ["id".toList, "class".toList]), ("h4".toList, ["id".toList, "class".toList]),
   ("h5".toList, ["id".toList, "class".toList]), ("hr".toList, []), ("li".toList, ["class".toList]),
   ("link".toList, ["href".toList, "media".toList]), ("i".toList, []),
   ("img".toList, ["alt".toList, "class".toList, "style".toList]), ("ol".toList, ["class".toList]),
   ("p".toList, ["class".toList]), ("pre".toList, ["class".toList]),
   ("span".toList, ["class".toList, "id".toList, "style".toList]), ("strong".toList, []), ("sub".toList, []),
   ("sup".toList, []), ("table".toList, ["id".toList, "class".toList]), ("tbody".toList, ["class".toList]),
   ("td".toList, ["class".toList]), ("th".toList, ["class".toList]), ("thead".toList, ["class".toList]),
   ("tr".toList, ["class".toList]), ("ul".toList, ["class".toList])]

end Formats

end Verif
