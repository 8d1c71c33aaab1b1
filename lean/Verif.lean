import Verif.Model.Define
import Verif.Model.Self
import Verif.Spec.Whitespace
import Verif.Proofs.Linked
import Verif.Proofs.Calls
import Verif.Proofs.Weak
import Verif.Proofs.WsStrong
import Verif.Proofs.WsCalls
import Verif.Proofs.Language
import Verif.Props.Language
import Verif.Props.Visible
import Verif.Props.Outcome
import Verif.Props.Reference
import Verif.Props.Matching
import Verif.Props.Definitions
import Verif.Proofs.Bits
import Verif.Props.Escape
import Verif.Props.Store
import Verif.Props.Command
import Verif.Proofs.Document
import Verif.Proofs.Simulation
import Verif.Proofs.SimInit
import Verif.Props.Document
import Verif.Props.Unreachable
import Verif.Model.Generate
import Verif.Spec.Generated
import Verif.Proofs.Declared
import Verif.Proofs.Generate
import Verif.Proofs.GenRun
import Verif.Proofs.GenProgram
import Verif.Proofs.GenSyntax
import Verif.Proofs.GenCalls
import Verif.Proofs.GenNames
import Verif.Props.Generate
import Verif.Spec.Keyword
import Verif.Proofs.Keyword
import Verif.Proofs.KeywordCalls
import Verif.Props.Keywords
import Verif.Proofs.Grow
import Verif.Proofs.Direct
import Verif.Spec.Recursion
import Verif.Props.Recursion
import Verif.Proofs.Failing
import Verif.Props.Errors
import Verif.Spec.Spaced
import Verif.Proofs.Relabel
import Verif.Proofs.Spaced
import Verif.Proofs.SpacedCalls
import Verif.Proofs.SpacedParse
import Verif.Props.Spaced
import Verif.Proofs.SelfStraight
import Verif.Proofs.SelfFirst
import Verif.Proofs.SelfGrammar
import Verif.Spec.Written
import Verif.Proofs.SelfKit
import Verif.Proofs.SelfLayout
import Verif.Proofs.SelfTokens
import Verif.Proofs.SelfExpr
import Verif.Proofs.SelfDocument
import Verif.Proofs.SelfInvert
import Verif.Proofs.SelfRead
import Verif.Proofs.DocumentUnique
import Verif.Props.Written
import Verif.Model.Print
import Verif.Spec.GoText
import Verif.Proofs.GoLex
import Verif.Proofs.GoRead
import Verif.Proofs.GoPrint
import Verif.Proofs.GoGenerate
import Verif.Proofs.GoNames
import Verif.Proofs.GoFile
import Verif.Props.Text
import Verif.Spec.Begins
import Verif.Proofs.Begins
import Verif.Proofs.Completes
import Verif.Props.Position
import Verif.Model.Wrap
import Verif.Spec.Wrap
import Verif.Proofs.Wrap
import Verif.Props.Wrap
import Verif.Model.Json
import Verif.Spec.Json
import Verif.Proofs.Json
import Verif.Proofs.JsonRead
import Verif.Proofs.JsonShow
import Verif.Props.Json
import Verif.Model.Main
import Verif.Spec.CommandLine
import Verif.Proofs.CommandLine
import Verif.Props.Main
import Verif.Model.Format
import Verif.Spec.Format
import Verif.Proofs.FormatFaces
import Verif.Proofs.FormatMeaning
import Verif.Proofs.FormatText
import Verif.Proofs.Format
import Verif.Proofs.FormatDocument
import Verif.Props.Format
import Verif.Spec.FormatWs
import Verif.Proofs.Alike
import Verif.Proofs.FormatWs
import Verif.Props.FormatWs
import Verif.Model.Reader
import Verif.Spec.Utf8
import Verif.Proofs.Utf8
import Verif.Props.Reader
import Verif.Model.Messages
import Verif.Props.Messages
import Verif.Props.CharRefs
import Verif.Model.DefErrors
import Verif.Props.DefErrors
import Verif.Proofs.NoPanic
import Verif.Props.Unmatched
import Verif.Model.SyntaxText
import Verif.Model.Boot
import Verif.Proofs.ReadDoc
import Verif.Proofs.Bootstrap
import Verif.Proofs.DocGen
import Verif.Props.Bootstrap
import Verif.Props.DocGen
import Verif.Props.DocCommand
import Verif.Spec.Lookahead
import Verif.Proofs.Lookahead
import Verif.Proofs.LookaheadTest
import Verif.Props.Lookahead
import Verif.Model.JsonText
import Verif.Spec.JsonGrammar
import Verif.Spec.LookaheadWs
import Verif.Proofs.LookaheadWs
import Verif.Proofs.LookaheadSpaced
import Verif.Proofs.LookaheadWsTest
import Verif.Proofs.DocTexts
import Verif.Proofs.JsonDoc
import Verif.Proofs.JsonRank
import Verif.Props.LookaheadWs
import Verif.Props.JsonExample
import Verif.Spec.Trees
import Verif.Spec.TreesDocument
import Verif.Proofs.Trees
import Verif.Proofs.TreesWs
import Verif.Proofs.DocTrees
import Verif.Proofs.TreesPlain
import Verif.Proofs.TreesForget
import Verif.Props.Trees
import Verif.Props.JsonTree
import Verif.Proofs.DefiniteTest
import Verif.Props.Definite
import Verif.Proofs.DefiniteWs
import Verif.Proofs.DocTreesBack
import Verif.Props.DefiniteWs
import Verif.Model.Trace
import Verif.Proofs.Trace
import Verif.Proofs.TraceBounds
import Verif.Proofs.TraceCost
import Verif.Proofs.Nest
import Verif.Props.Trace
import Verif.Props.TraceJson
import Verif.Model.Examples
import Verif.Proofs.Examples
import Verif.Proofs.Dependable
import Verif.Proofs.Firm
import Verif.Proofs.FirmRoot
import Verif.Proofs.ExampleDocs
import Verif.Proofs.ExampleJson
import Verif.Proofs.ExampleSexpr
import Verif.Proofs.ExampleScheme
import Verif.Proofs.ExampleKeyval
import Verif.Proofs.ExampleEskip
import Verif.Props.Examples
import Verif.Proofs.Returns
import Verif.Props.Returns
import Verif.Spec.JsonMeaning
import Verif.Proofs.JsonIndent
import Verif.Props.JsonShown
