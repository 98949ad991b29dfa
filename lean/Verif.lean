import Verif.Props.ActionQueue
import Verif.Props.AllDiags
import Verif.Props.Async
import Verif.Props.BlankLines
import Verif.Props.BlockComment
import Verif.Props.BlockCommentLines
import Verif.Props.CelTokens
import Verif.Props.CodeActionResult
import Verif.Props.CodeActions
import Verif.Props.ColumnFormat
import Verif.Props.ColumnGroups
import Verif.Props.CommentText
import Verif.Props.CompactOptions
import Verif.Props.Compile
import Verif.Props.Completion
import Verif.Props.CompletionOrder
import Verif.Props.CursorPath
import Verif.Props.Decode
import Verif.Props.DecodeCmd
import Verif.Props.Definition
import Verif.Props.DiagnosticContents
import Verif.Props.Diagnostics
import Verif.Props.Documents
import Verif.Props.Driver
import Verif.Props.DumpAst
import Verif.Props.ExtPlugin
import Verif.Props.FanIn
import Verif.Props.FileEvents
import Verif.Props.FileHeader
import Verif.Props.FindFile
import Verif.Props.FindFilePaths
import Verif.Props.FindTypes
import Verif.Props.FmtCmd
import Verif.Props.FormatComments
import Verif.Props.FormatDoc
import Verif.Props.FormatWriter
import Verif.Props.Formatter
import Verif.Props.GenFiles
import Verif.Props.Generate
import Verif.Props.GenerateCode
import Verif.Props.GenerateWorkspace
import Verif.Props.GoNames
import Verif.Props.GoPackage
import Verif.Props.GrpcGen
import Verif.Props.Hover
import Verif.Props.ImportComplete
import Verif.Props.InlayHints
import Verif.Props.InlineComment
import Verif.Props.Inspect
import Verif.Props.Links
import Verif.Props.OptionComplete
import Verif.Props.OptionLocations
import Verif.Props.OptionValues
import Verif.Props.Outline
import Verif.Props.Overwrite
import Verif.Props.PathSearch
import Verif.Props.PrefixList
import Verif.Props.PrintComment
import Verif.Props.PrintFiles
import Verif.Props.PrintOrder
import Verif.Props.PrintPath
import Verif.Props.PrintWriter
import Verif.Props.Printer
import Verif.Props.PrinterComments
import Verif.Props.Publish
import Verif.Props.Qualify
import Verif.Props.QuickFix
import Verif.Props.Quote
import Verif.Props.RWLock
import Verif.Props.RWLockRequests
import Verif.Props.Races
import Verif.Props.RangeTokens
import Verif.Props.Ranges
import Verif.Props.Refactor
import Verif.Props.References
import Verif.Props.Registry
import Verif.Props.RelativeName
import Verif.Props.Rename
import Verif.Props.Requote
import Verif.Props.ResolveEdit
import Verif.Props.Resolver
import Verif.Props.Search
import Verif.Props.SearchDirs
import Verif.Props.Semantic
import Verif.Props.Simplify
import Verif.Props.SourceInfo
import Verif.Props.StringTokens
import Verif.Props.SymbolQuery
import Verif.Props.Symbols
import Verif.Props.TokenCells
import Verif.Props.Transform
import Verif.Props.TypeComplete
import Verif.Props.ValueComplete
import Verif.Props.Versions
import Verif.Props.Vet
import Verif.Props.Workspaces
