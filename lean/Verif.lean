import Verif.Bytes
import Verif.Bits
import Verif.Crc
import Verif.VM
import Verif.SweepIp
import Verif.Run
import Verif.Demo
import Verif.SweepErr
import Verif.SweepUb
import Verif.SweepFrame
import Verif.SweepMono
import Verif.SimRun
import Verif.Props.Safety
import Verif.Props.BitFields
import Verif.Props.Scalar
import Verif.Props.Checks
import Verif.Props.Control
import Verif.Props.Strings
import Verif.CrcLemmas
import Verif.Props.Crc
import Verif.Props.Keep
import Verif.Schema
import Verif.SchemaRun
import Verif.Props.Packet
import Verif.Props.Arrays
import Verif.Props.Trans
import Verif.Pair
import Verif.Twin
import Verif.Props.TwoRuns
import Verif.SweepCnt
import Verif.Props.Term
import Verif.Image
import Verif.Props.Image
import Verif.CompUtil
import Verif.Props.Names
import Verif.Walk
import Verif.Verify
import Verif.Props.Verify
import Verif.Props.VerifyPackets
import Verif.Props.Expr
import Verif.Lexer
import Verif.Props.Lexer
import Verif.ExprParse
import Verif.Props.Precedence
import Verif.Fmt
import Verif.Props.Fmt
import Verif.Inspect
import Verif.Props.Inspect
import Verif.Props.Inline
import Verif.OptStr
import Verif.Parse
import Verif.Props.OptStr
import Verif.Props.ParseTerm
import Verif.Source
import Verif.Props.LexUnique
import Verif.Props.Source
import Verif.Props.SourceField
import Verif.Props.SourceSwitch
import Verif.Props.SourceStmt
import Verif.Props.SourceTop
import Verif.Props.SourceMain
import Verif.Props.SourceFindings
import Verif.Sch
import Verif.CurveStep
import Verif.Props.Sch
import Verif.SrcSch
import Verif.Props.SrcSch
import Verif.Props.OptSch
import Verif.Props.SrcKeys
import Verif.Props.EndToEnd
import Verif.Mimic
import Verif.Json
import Verif.JsonTree
import Verif.JsonRun
import Verif.JsonMimic
import Verif.JsonDoc
import Verif.Soft
import Verif.Props.Json
import Verif.Props.JsonExist
import Verif.Props.JsonFind
import Verif.CliLoad
import Verif.Props.Tools
import Verif.SafeRun
import Verif.Tame
import Verif.TameRun
import Verif.TameRuns
import Verif.Props.Total
import Verif.Props.Prefix
import Verif.SweepHost
import Verif.Strict
import Verif.StrictRun
import Verif.StrictRuns
import Verif.Props.Accept
import Verif.Lsp
import Verif.LspCursor
import Verif.Props.Lsp
import Verif.Props.LspCursor
import Verif.Props.ExprExact
import Verif.Import
import Verif.Props.Import
import Verif.Props.ImportTerm
import Verif.GoBind
import Verif.SweepCall
import Verif.Props.GoBind
import Verif.Props.Calls
import Verif.Props.WireFormat
import Verif.CodeShape
import Verif.Props.CodeShape
import Verif.Props.CodeStmt
import Verif.Props.CodeSwitch
import Verif.Props.CodeTop
import Verif.SweepCbErr
import Verif.Props.CallErr
import Verif.CodeFlow
import Verif.Props.CodeFlow
import Verif.Ieee
import Verif.Props.Curves
import Verif.Props.CurveFind
import Verif.IeeeNear
import Verif.Props.CurveNear
import Verif.Props.ReadToEnd
import Verif.JsonHex
import Verif.Props.JsonHex
import Verif.GenBind
import Verif.Props.Bindings
import Verif.Props.BindText
import Verif.Props.BindNames
import Verif.LspContext
import Verif.Props.LspContext
import Verif.Props.LspPrograms
import Verif.LspDiag
import Verif.Props.LspDiag
import Verif.Props.FmtTokens
import Verif.Props.FmtSettle
import Verif.FixedRun
import Verif.Props.Corrupt
import Verif.Props.Linear
import Verif.Grow
import Verif.SweepByted
import Verif.Props.Fits
import Verif.Cli
import Verif.Props.Cli
import Verif.LspSymbols
import Verif.Props.LspSymbols
import Verif.Props.LspKnown
import Verif.Props.Outline
import Verif.LspSession
import Verif.Props.LspSession
import Verif.Demos
import Verif.Props.Demos
import Verif.Memory
import Verif.Props.Memory
import Verif.Registry
import Verif.Props.Registry
import Verif.Props.NoUb
import Verif.Props.NoUbShort
import Verif.Props.NoUbFiles
import Verif.Fuzz
import Verif.Props.Fuzz
import Verif.Props.FuzzSource
import Verif.Nob
import Verif.Props.Nob
import Verif.Sink
import Verif.Props.Sink
import Verif.Props.EmitKey
import Verif.Props.SinkSchema
import Verif.Props.ExampleSchemas
import Verif.Audit
