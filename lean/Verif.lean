import Verif.Props.TokenDelta
import Verif.Props.TokenCache
import Verif.Props.EditorDiag
import Verif.Props.Interner
import Verif.Props.Fingerprint
import Verif.Props.Framing
import Verif.Props.Server
import Verif.Props.Lock
import Verif.Props.AtomicWrite
import Verif.Props.Vfs
import Verif.Props.SourceDb
import Verif.Props.Watch
import Verif.Props.WatchTimes
import Verif.Props.Project
import Verif.Props.ProjectEdits
import Verif.Props.Position
import Verif.Props.Tokens
import Verif.Props.Pages
import Verif.Props.Paths
import Verif.Props.Workspace
import Verif.Props.Entry
import Verif.Props.EntryRoot
import Verif.Props.PathPattern
import Verif.Props.SnapshotMap
import Verif.Props.Compute
import Verif.Props.ExportPolicy
import Verif.Props.Folder
import Verif.Props.DiagFlow
import Verif.Props.Focus
import Verif.Props.Routes
import Verif.Props.Format
import Verif.Props.WordCount
import Verif.Props.Outline
import Verif.Props.Jump
import Verif.Props.PreviewEditor
import Verif.Props.PreviewRender
import Verif.Props.PreviewTabs
import Verif.Props.Origin
import Verif.Props.Folding
import Verif.Props.OnEnter
import Verif.Props.DiagConvert
import Verif.Props.Rename
import Verif.Props.ShardMap
import Verif.Props.Sections
import Verif.Props.CallArgs
import Verif.Props.SignatureHelp
import Verif.Props.Scoping
import Verif.Props.References
import Verif.Props.Selection
import Verif.Model.Coverage
import Verif.Spec.Coverage
import Verif.Props.Coverage
import Verif.Props.CoverageCount
import Verif.Props.Testing
import Verif.Props.TestingSafe
import Verif.Props.TestingGreen
import Verif.Props.TestingRefs
import Verif.Props.Packages
import Verif.Props.PackagesKept
import Verif.Props.PackagesList
import Verif.Props.PackagesInit
import Verif.Props.PackagesAnswer
import Verif.Props.CodeAction
import Verif.Props.Highlight
import Verif.Props.Config
import Verif.Props.L10n
import Verif.Props.L10nFile
import Verif.Props.Lint
import Verif.Props.Inlay
import Verif.Props.Symbols
import Verif.Props.Bib
import Verif.Props.Docs
import Verif.Props.DocsTidy
import Verif.Props.Complete
import Verif.Props.CompleteEdits
import Verif.Props.CompleteList
import Verif.Props.CompleteSlice
import Verif.Props.CompletePostfix
import Verif.Props.CompletePaths
import Verif.Props.CompleteOffers
import Verif.Props.TypliteCode
import Verif.Props.TypliteTable
import Verif.Props.TypliteMarks
import Verif.Props.TyplitePictures
import Verif.Props.TypliteInclude
import Verif.Props.TypliteText
import Verif.Props.TyCall
import Verif.Props.TySimplify
import Verif.Props.TyDescribe
import Verif.Props.Universe
import Verif.Props.Worlds
import Verif.Props.Fonts
import Verif.Model.Packs
import Verif.Spec.Packs
import Verif.Props.Packs
import Verif.Model.Metrics
import Verif.Spec.Metrics
import Verif.Props.Metrics
import Verif.Model.Colors
import Verif.Spec.Colors
import Verif.Props.Colors
import Verif.Model.Click
import Verif.Spec.Click
import Verif.Props.Click
import Verif.Props.Cursor
import Verif.Model.Mode
import Verif.Spec.Mode
import Verif.Props.Mode
import Verif.Model.Offer
import Verif.Spec.Offer
import Verif.Props.Offer
import Verif.Model.Sampled
import Verif.Spec.Sampled
import Verif.Props.Sampled
import Verif.Model.FontSummary
import Verif.Spec.FontSummary
import Verif.Props.FontSummary
import Verif.Model.DocText
import Verif.Spec.DocText
import Verif.Props.DocText
import Verif.Model.Hover
import Verif.Spec.Hover
import Verif.Props.Hover
import Verif.Model.Interned
import Verif.Spec.Interned
import Verif.Lemmas.Interned
import Verif.Props.Interned
import Verif.Model.Breakpoint
import Verif.Spec.Breakpoint
import Verif.Props.Breakpoint
import Verif.Model.Viewers
import Verif.Spec.Viewers
import Verif.Lemmas.Viewers
import Verif.Props.Viewers
import Verif.Model.Debugging
import Verif.Spec.Debugging
import Verif.Props.Debugging
import Verif.Model.LockFlow
import Verif.Spec.LockFlow
import Verif.Props.LockFlow
import Verif.Model.Links
import Verif.Spec.Links
import Verif.Props.Links
import Verif.Model.PkgDocs
import Verif.Spec.PkgDocs
import Verif.Lemmas.PkgDocs
import Verif.Props.PkgDocs
import Verif.Model.ExprTy
import Verif.Spec.ExprTy
import Verif.Props.ExprTy
import Verif.Model.Uris
import Verif.Spec.Uris
import Verif.Props.Uris
import Verif.Model.BuildScript
import Verif.Spec.BuildScript
import Verif.Lemmas.BuildScript
import Verif.Props.BuildScript
import Verif.Model.Pointer
import Verif.Spec.Pointer
import Verif.Props.Pointer
import Verif.Model.Mirror
import Verif.Spec.Mirror
import Verif.Lemmas.Mirror
import Verif.Props.Mirror
import Verif.Model.Clock
import Verif.Spec.Clock
import Verif.Lemmas.Clock
import Verif.Props.Clock
import Verif.Model.Renaming
import Verif.Spec.Renaming
import Verif.Lemmas.Renaming
import Verif.Props.Renaming
import Verif.Props.Trace
import Verif.Props.WebTokens
import Verif.Props.Stats
import Verif.Props.TypeOffer
import Verif.Props.Scan
import Verif.Props.WebFonts
import Verif.Props.Constrain
import Verif.Props.Context
import Verif.Props.Alias
import Verif.Props.LatestDoc
import Verif.Props.Exporting
import Verif.Props.DocTypes
import Verif.Props.RevCache
import Verif.Props.Waiting
import Verif.Props.ImportCursor
import Verif.Props.SigCache
import Verif.Props.Groups
import Verif.Props.Members
import Verif.Props.Naming
import Verif.Props.Coloring
import Verif.Props.Answer
import Verif.Props.Tips
import Verif.Props.Elements
import Verif.Props.Listed
import Verif.Props.Told
import Verif.Props.OutlineFlow
import Verif.Props.OutlineMany
import Verif.Props.Recorded
