import Verif.Bytes
import Verif.Token
import Verif.Flags
import Verif.Transforms
import Verif.Props.C29
import Verif.Props.C30
import Verif.Props.C50
import Verif.CursorPool
import Verif.CursorSpec
import Verif.CursorPoolLemmas
import Verif.Props.C23
import Verif.Props.C24
import Verif.CursorData
import Verif.Props.C25
import Verif.RoundSpec
import Verif.Scanner
import Verif.ScannerLemmas
import Verif.JsonDecoder
import Verif.JsonPure
import Verif.JsonPureLemmas
import Verif.JsonRun
import Verif.JsonFuel
import Verif.Rfc8259
import Verif.JsonLex
import Verif.JsonGrammar
import Verif.JsonStream
import Verif.JsonExact
import Verif.Prefix
import Verif.JsonSuffix
import Verif.Props.C02
import Verif.Props.C03
import Verif.Props.C04
import Verif.Props.C05
import Verif.Props.C06
import Verif.Props.C07
import Verif.Props.C08
import Verif.Props.C09
import Verif.Props.C10
import Verif.Props.C51
import Verif.Streams
import Verif.StreamsLemmas
import Verif.ParseToks
import Verif.IterProg
import Verif.IterHeap
import Verif.IterSpec
import Verif.IterStreams
import Verif.IterInv
import Verif.IterKeep
import Verif.IterSim
import Verif.IterSim2
import Verif.IterSim3
import Verif.IterLogic
import Verif.Printer
import Verif.JsonEncoder
import Verif.JsonLayout
import Verif.JsonColl
import Verif.EncSpec
import Verif.JsonRound
import Verif.JsonText
import Verif.JsonColor
import Verif.Props.C01
import Verif.Props.C11
import Verif.Props.C12
import Verif.Props.C13
import Verif.Props.C14
import Verif.IterRoot
import Verif.GoJson
import Verif.StrSpec
import Verif.IterTransforms
import Verif.Props.C26
import Verif.Props.C27
import Verif.Props.C31
import Verif.Props.C32
import Verif.IterReader
import Verif.IterClones
import Verif.Decimal
import Verif.Equality
import Verif.Data
import Verif.IterEff
import Verif.EqualLogic
import Verif.EqualObj
import Verif.Props.C28
import Verif.JpvDecoder
import Verif.JpvPure
import Verif.JpvRun
import Verif.IndexNum
import Verif.JpvSpec
import Verif.JpvGrammar
import Verif.JpvWell
import Verif.Props.C17
import Verif.Props.C18
import Verif.Props.C52
import Verif.JpvEncoder
import Verif.JpvLayout
import Verif.JpvSubset
import Verif.JpvTree
import Verif.JpvRound
import Verif.Props.C15
import Verif.Props.C16
import Verif.Props.C19
import Verif.ScannerState
import Verif.NumPrefix
import Verif.CsvDecoder
import Verif.CsvSpec
import Verif.CsvFields
import Verif.CsvStrings
import Verif.CsvRecords
import Verif.CsvReread
import Verif.Props.C20
import Verif.Props.C21
import Verif.Props.C22
import Verif.PathSelectors
import Verif.PathSpec
import Verif.PathWindow
import Verif.PathSlices
import Verif.QuotedLit
import Verif.LitSpec
import Verif.QuotedLemmas
import Verif.IRegexp
import Verif.IRegexpSpec
import Verif.IRegexpLemmas
import Verif.Formats
import Verif.FormatsLemmas
import Verif.Props.C35
import Verif.Props.C36
import Verif.Props.C37
import Verif.Props.C47
import Verif.Props.C48
import Verif.Props.C49
import Verif.PathAst
import Verif.PathGrammar
import Verif.PathCompiler
import Verif.PathInts
import Verif.PathIntLemmas
import Verif.PathNamed
import Verif.PathEngine
import Verif.PathTwin
import Verif.PathKeep
import Verif.IterMod
import Verif.PathSim
import Verif.PathSim2
import Verif.PathSim3
import Verif.PathSim4
import Verif.PathSim5
import Verif.PathSim6
import Verif.PathList
import Verif.PathRun
import Verif.PathCmp
import Verif.StrOrder
import Verif.PathRfc
import Verif.PathDen
import Verif.PathCmp2
import Verif.PathNodes
import Verif.PathQuery
import Verif.PathFn
import Verif.PathSafe
import Verif.PathTables
import Verif.PathCompileOk
import Verif.PathCtx
import Verif.PathMain
import Verif.PathFuel
import Verif.PathOut
import Verif.PathBack
import Verif.PathSamples
import Verif.PathShare
import Verif.PathFaith
import Verif.Props.C38
import Verif.Props.C39
import Verif.Props.C40
import Verif.Props.C41
import Verif.Props.C42
import Verif.Props.C43
import Verif.Props.C44
import Verif.Props.C45
import Verif.Props.C46
import Verif.Props.C34
import Verif.Pipeline
import Verif.Props.C33
import Verif.TypeSpec
import Verif.PathTyping
import Verif.Props.C53
import Verif.PathLexer
import Verif.PathParser
import Verif.QuerySpec
import Verif.PathUnparse
import Verif.PathParseSound
import Verif.PathParseFuel
import Verif.PathParseOk
import Verif.PathLexSplit
import Verif.PathLexOk
import Verif.PathTextOk
import Verif.PathLexSound
import Verif.PathTextSound
import Verif.PathTextEnd
import Verif.Props.C54
import Verif.Program
import Verif.ProgramLemmas
import Verif.JsonCompact
import Verif.Props.C55
import Verif.Props.C56
import Verif.Props.C57
import Verif.Props.C58
import Verif.Props.C59
import Verif.Props.C60
import Verif.LayoutHints
import Verif.Props.C61
import Verif.Props.C62
import Verif.Props.C63
import Verif.CommandLine
import Verif.CommandSpec
import Verif.Reach
import Verif.Props.C64
import Verif.PathReach
import Verif.PathPrompt
import Verif.PathTame
import Verif.PathShape
import Verif.FmtOk
import Verif.Exec
import Verif.RepoTests
import Verif.RepoTests2
import Verif.RepoCts1
import Verif.RepoCts2
import Verif.RepoCts3
import Verif.RepoCts4
import Verif.HeapLocal
import Verif.Bufio
import Verif.EncPrompt
import Verif.PromptSpec
import Verif.EncCut
import Verif.PrintSpec
import Verif.JpvCut
import Verif.SplitCut
import Verif.Props.C65
import Verif.Goroutine
import Verif.EncFuel
import Verif.ProgramGo
import Verif.Confluence
import Verif.Props.C66
import Verif.FailingOutput
import Verif.Props.C67
import Verif.CsvReader
import Verif.CsvLines
import Verif.Rfc4180
import Verif.CsvGrammar
import Verif.CsvParse
import Verif.CsvFile
import Verif.Props.C68
import Verif.JpvMeaning
import Verif.JpvPlay
import Verif.JpvStrings
import Verif.Props.C69
import Verif.RegexSpec
import Verif.GoRegex
import Verif.RegexChars
import Verif.RegexMatch
import Verif.RegexParse
import Verif.RegexText
import Verif.RegexDet
import Verif.Props.C70
import Verif.FormatFloat
import Verif.GoScalar
import Verif.Props.C71
import Verif.Props.C72
import Verif.JpvPrefix
import Verif.CsvPrefix
import Verif.Props.C73
import Verif.EncTotal
import Verif.SplitPure
import Verif.Props.C74
import Verif.Quiet
import Verif.EncQuiet
import Verif.HeldDesc
import Verif.ScanMemory
import Verif.ScanEcho
import Verif.Props.C75
import Verif.PathSteps
import Verif.Props.C76
import Verif.HeapEnds
import Verif.QueryEnds
import Verif.QueryRuns
import Verif.Props.C77
import Verif.EncTrunc
import Verif.JsonTrunc
import Verif.Props.C78
import Verif.Origin
import Verif.OriginPath
import Verif.JsonOrigin
import Verif.JpvOrigin
import Verif.CsvOrigin
import Verif.OriginEnc
import Verif.Props.C79
import Verif.Utf8Flow
import Verif.Props.C80
import Verif.Props.C81
import Verif.Props.C82
import Verif.CsvFuel
import Verif.CsvEnd
import Verif.CsvBlank
import Verif.Props.C83
import Verif.Props.C84
import Verif.Props.C85
import Verif.Props.C86
