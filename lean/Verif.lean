import Verif.Props.Parser
import Verif.Props.Lists
import Verif.Props.Attributes
import Verif.Props.Context
import Verif.Props.Header
import Verif.Props.Labels
import Verif.Props.Utils
import Verif.Props.StrParse
import Verif.Props.Decider
import Verif.Props.Builder
import Verif.Props.Signals
import Verif.Props.Macros
import Verif.Props.Paragraphs
import Verif.Props.ListTag
import Verif.Props.Formats
import Verif.Props.Document
import Verif.Props.Paths
import Verif.Props.Tags
import Verif.Props.Typography
import Verif.Props.Checkers
import Verif.Props.Navigation
import Verif.Props.Validators
import Verif.Props.Data
import Verif.Props.ContextTree
import Verif.Props.Render
import Verif.Props.Links
import Verif.Props.LabelText
import Verif.Props.Targets
import Verif.Props.Text
import Verif.Props.Chain
import Verif.Props.Mock
import Verif.Props.Template
import Verif.Props.Scanner
import Verif.Props.Epub
import Verif.Props.Media
import Verif.Props.Composite
import Verif.Props.Page
import Verif.Props.Refs
import Verif.Props.Starters
import Verif.Props.CopyFile
import Verif.Props.Jinja
import Verif.Props.Rewrite
import Verif.Props.Server
import Verif.Props.Preamble
import Verif.Props.HtmlCopy
import Verif.Props.Build
import Verif.Props.BuildEnds
import Verif.Props.Command
import Verif.Props.Executor
import Verif.Props.AddFile
import Verif.Props.BuildAdds
import Verif.Props.Cli
import Verif.Props.Assembly
import Verif.Props.BuildEpub
import Verif.Props.BuildFresh
import Verif.Props.BuildStop
import Verif.Props.EqImage
import Verif.Props.ContextCopy
import Verif.Props.Classes
import Verif.Props.OtherLink
import Verif.Props.HeaderTags
import Verif.Props.RefDeps
import Verif.Props.Code
import Verif.Props.DocContext
import Verif.Props.Terminal
import Verif.Props.Figures
import Verif.Props.Csv
import Verif.Props.LinkCopy
import Verif.Props.AttrEdit
import Verif.Props.Convert
import Verif.Props.Kpse
import Verif.Props.ContextArgs
import Verif.Props.ScannerCache
import Verif.Props.TagCache
import Verif.Props.InheritCache
import Verif.Props.ReplTags
import Verif.Props.BuilderActive
import Verif.Props.ParentPaths
import Verif.Props.TagEq
import Verif.Props.VersionText
import Verif.Props.BuilderTree
