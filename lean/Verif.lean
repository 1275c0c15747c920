import Verif.Model.Basic
import Verif.Model.Ast
import Verif.Model.AstJson
import Verif.Lemmas.Str
import Verif.Props.AstProps
import Verif.Props.CommandJson
import Verif.Model.Condition
import Verif.Props.Conditions
import Verif.Props.Generation
import Verif.Props.OrderIndependence
import Verif.Props.OrderConverse
import Verif.Props.Builds
import Verif.Model.AstValidator
import Verif.Props.AstValidation
import Verif.Model.Attribute
import Verif.Model.Bundle
import Verif.Model.OcaBox
import Verif.Model.Api
import Verif.Model.FromBundle
import Verif.Model.Build
import Verif.Lemmas.Generate
import Verif.Lemmas.Effect
import Verif.Lemmas.Reach
import Verif.Lemmas.GenBundle
import Verif.Lemmas.Apply
import Verif.Demo
import Verif.Props.Commands
import Verif.Props.Histories
import Verif.Props.Commute
import Verif.Props.Reload
import Verif.Props.Validation
import Verif.Props.Translations
import Verif.Props.ToAst
import Verif.Props.BundleJson
import Verif.Props.StoredBuild
import Verif.Props.Storage
import Verif.Model.Explore
import Verif.Props.Relations
import Verif.Props.JsonText
import Verif.Model.Dag
import Verif.Model.Facade
import Verif.Lemmas.Frame
import Verif.Props.References
import Verif.Lemmas.Depth
import Verif.Props.History
import Verif.Lemmas.Stored
import Verif.Props.Files
import Verif.Props.FileExamples
import Verif.Props.Dependencies
import Verif.Props.Pages
import Verif.Props.UnknownBase
import Verif.Lemmas.Writes
import Verif.Props.Rebuild
import Verif.Props.FacadeRelations
import Verif.Props.CoreModel
import Verif.Props.VersionGraph
import Verif.Props.Transformation
import Verif.Model.Peg
import Verif.Model.Grammar
import Verif.Model.Instructions
import Verif.Model.Printer
import Verif.Lemmas.Peg
import Verif.Lemmas.Grammar
import Verif.Lemmas.Parse
import Verif.Lemmas.All2
import Verif.Lemmas.ParsePairs
import Verif.Lemmas.ParseValues
import Verif.Lemmas.ParseCommands
import Verif.Lemmas.ParseFraming
import Verif.Lemmas.ParseLines
import Verif.Props.PrintParse
import Verif.Props.TextBuild
import Verif.Props.TextExamples
import Verif.Lemmas.Emits
import Verif.Lemmas.Shapes
import Verif.Lemmas.PairShapes
import Verif.Lemmas.CommandShapes
import Verif.Lemmas.ContentShapes
import Verif.Lemmas.FileShapes
import Verif.Props.ParsedText
import Verif.Props.TextAborts
import Verif.Props.Reprint
import Verif.Model.FileText
import Verif.Lemmas.TopFile
import Verif.Props.FileDispatch
import Verif.Lemmas.TransText
import Verif.Props.TransformationText
import Verif.Props.BuildConverse
import Verif.Props.ToAstFull
import Verif.Props.StoredExact
import Verif.Lemmas.Plain
import Verif.Props.Continuation
import Verif.Lemmas.Tidy
import Verif.Lemmas.TidyBundle
import Verif.Props.LoadJson
import Verif.Props.StoreTotal
import Verif.Props.FacadeText
import Verif.Model.Fetch
import Verif.Props.HistoryText
import Verif.Props.HistoryTextExample
import Verif.Props.Objects
import Verif.Props.ObjectsExample
import Verif.Lemmas.LoadStored
import Verif.Props.Replay
import Verif.Props.ReplayExample
import Verif.Props.ExportText
import Verif.Props.ExportTextExample
import Verif.Props.DagBuild
import Verif.Props.DagBuildExample
import Verif.Props.Package
import Verif.Props.PackageExample
import Verif.Model.WholeAst
import Verif.Props.WholeAst
import Verif.Props.TextTree
import Verif.Props.TextTreeExample
import Verif.Props.Crash
import Verif.Props.CrashRelations
import Verif.Lemmas.AnyErr
import Verif.Props.CrashFiles
import Verif.Props.CrashRetry
import Verif.Props.CrashHistory
import Verif.Props.CrashPoints
import Verif.Props.CrashExample
import Verif.Model.Search
import Verif.Props.Search
import Verif.Props.SearchExample
import Verif.Props.Extension
import Verif.Props.Extended
import Verif.Props.ExtendedText
import Verif.Props.ExtendedExample
import Verif.Props.Library
import Verif.Props.LibraryCalls
import Verif.Props.Lineage
import Verif.Props.LineageExample
import Verif.Props.TransRead
import Verif.Props.ReadCommand
import Verif.Props.Format
import Verif.Props.Portable
import Verif.Props.PortableExample
import Verif.Props.Lines
import Verif.Props.Wire
import Verif.Props.LayoutFree
import Verif.Props.LayoutComment
import Verif.Props.LayoutBuild
import Verif.Props.LineNumbers
import Verif.Props.Standards
import Verif.Props.SearchLanguage
import Verif.Props.Blake3
import Verif.Props.Conformance
import Verif.Props.AnyBase
import Verif.Props.SearchScope
import Verif.Props.AnyValidation
import Verif.Props.AnyAst
import Verif.Props.AnyFile
import Verif.Props.NoEffect
import Verif.Props.AnyState
import Verif.Props.Threads
import Verif.Props.ThreadsExample
import Verif.Props.ThreadHistory
import Verif.Props.ThreadHistoryExample
import Verif.Props.ThreadMoments
import Verif.Props.Failures
import Verif.Props.FailuresExample
import Verif.Props.Lost
import Verif.Props.LostExample
import Verif.Props.Same
import Verif.Props.SameExample
import Verif.Props.JsonSpelling
import Verif.Props.Layers
import Verif.Props.LayersFile
import Verif.Props.Content
import Verif.Props.ContentCodes
import Verif.Props.PageOrder
