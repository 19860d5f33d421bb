import Verif.Lemmas.Algebra
import Verif.Lemmas.AstEq
import Verif.Lemmas.Base
import Verif.Lemmas.BigStep
import Verif.Lemmas.Blame
import Verif.Lemmas.Box
import Verif.Lemmas.BuiltSimp
import Verif.Lemmas.Bytes
import Verif.Lemmas.Calendar
import Verif.Lemmas.Callback
import Verif.Lemmas.CallsBelow
import Verif.Lemmas.CharConst
import Verif.Lemmas.Clean
import Verif.Lemmas.Closure
import Verif.Lemmas.Combinators
import Verif.Lemmas.Concurrent
import Verif.Lemmas.Cost
import Verif.Lemmas.CostLower
import Verif.Lemmas.CostSem
import Verif.Lemmas.Cover
import Verif.Lemmas.CsvBlame
import Verif.Lemmas.CsvCalls
import Verif.Lemmas.CsvCost
import Verif.Lemmas.CsvExact
import Verif.Lemmas.CsvParse
import Verif.Lemmas.CsvParts
import Verif.Lemmas.CsvRound
import Verif.Lemmas.CsvTotal
import Verif.Lemmas.DateForms
import Verif.Lemmas.DateTime
import Verif.Lemmas.Decimal
import Verif.Lemmas.DeepMatch
import Verif.Lemmas.Den
import Verif.Lemmas.Depth
import Verif.Lemmas.DepthBelow
import Verif.Lemmas.DepthExamples
import Verif.Lemmas.DepthLower
import Verif.Lemmas.DepthRec
import Verif.Lemmas.Engine
import Verif.Lemmas.Eval
import Verif.Lemmas.Exact
import Verif.Lemmas.ExprChain
import Verif.Lemmas.Expressive
import Verif.Lemmas.Extra
import Verif.Lemmas.FloatLit
import Verif.Lemmas.FloatRound
import Verif.Lemmas.FloatText
import Verif.Lemmas.Footprint
import Verif.Lemmas.Ford
import Verif.Lemmas.FordTools
import Verif.Lemmas.FormulaBlame
import Verif.Lemmas.FormulaCalls
import Verif.Lemmas.FormulaExact
import Verif.Lemmas.FormulaLeaves
import Verif.Lemmas.FormulaParts
import Verif.Lemmas.FormulaRules
import Verif.Lemmas.FormulaText
import Verif.Lemmas.FormulaTokens
import Verif.Lemmas.FormulaTotal
import Verif.Lemmas.Frame
import Verif.Lemmas.Fuel
import Verif.Lemmas.Goroutines
import Verif.Lemmas.Greedy
import Verif.Lemmas.Heap
import Verif.Lemmas.HeapRun
import Verif.Lemmas.IntLit
import Verif.Lemmas.Invariants
import Verif.Lemmas.Items
import Verif.Lemmas.ItemsTools
import Verif.Lemmas.Language
import Verif.Lemmas.Lazy
import Verif.Lemmas.LazySteady
import Verif.Lemmas.Ledger
import Verif.Lemmas.LedgerProduction
import Verif.Lemmas.Lexer
import Verif.Lemmas.LibTerms
import Verif.Lemmas.Linear
import Verif.Lemmas.LinearExamples
import Verif.Lemmas.LinearRun
import Verif.Lemmas.Local
import Verif.Lemmas.LocalTerms
import Verif.Lemmas.Logic
import Verif.Lemmas.Longest
import Verif.Lemmas.Loop
import Verif.Lemmas.Loose
import Verif.Lemmas.Marshal
import Verif.Lemmas.MarshalRound
import Verif.Lemmas.Minimal
import Verif.Lemmas.Moved
import Verif.Lemmas.NumberErrors
import Verif.Lemmas.ObjLogic
import Verif.Lemmas.OpTable
import Verif.Lemmas.OpTableExample
import Verif.Lemmas.OpTableRun
import Verif.Lemmas.Pipeline
import Verif.Lemmas.Position
import Verif.Lemmas.Precedence
import Verif.Lemmas.Production
import Verif.Lemmas.ProductionPanics
import Verif.Lemmas.ReflectBox
import Verif.Lemmas.Relational
import Verif.Lemmas.RpnRules
import Verif.Lemmas.Runs
import Verif.Lemmas.Scanner
import Verif.Lemmas.SeqI
import Verif.Lemmas.Span
import Verif.Lemmas.StackMachine
import Verif.Lemmas.StrTransformers
import Verif.Lemmas.Strconv
import Verif.Lemmas.SumText
import Verif.Lemmas.TermTerminals
import Verif.Lemmas.Terminals
import Verif.Lemmas.Termination
import Verif.Lemmas.Text
import Verif.Lemmas.TimeParse
import Verif.Lemmas.TimeWhole
import Verif.Lemmas.ToRpnHeap
import Verif.Lemmas.ToRpnRules
import Verif.Lemmas.Total
import Verif.Lemmas.TraceAll
import Verif.Lemmas.Tracer
import Verif.Lemmas.Traverse
import Verif.Lemmas.TraverseRun
import Verif.Lemmas.TrimOrder
import Verif.Lemmas.TryCount
import Verif.Lemmas.Twin
import Verif.Lemmas.TwinFormula
import Verif.Lemmas.UnicodeIdent
import Verif.Lemmas.Unmarshal
import Verif.Lemmas.Utf8
import Verif.Lemmas.ViablePrefix
import Verif.Lemmas.ViablePrefixRun
import Verif.Lemmas.WordBoundary
import Verif.Model.Base
import Verif.Model.Box
import Verif.Model.Concurrent
import Verif.Model.Examples.Csv
import Verif.Model.Examples.Formula
import Verif.Model.Examples.Marshal
import Verif.Model.Examples.Message
import Verif.Model.Examples.Minimal
import Verif.Model.Examples.Programs
import Verif.Model.Examples.ToRpn
import Verif.Model.Examples.ToRpnHeap
import Verif.Model.Extra
import Verif.Model.Gram
import Verif.Model.Heap
import Verif.Model.Lazy
import Verif.Model.ObjParsers
import Verif.Model.ParseFloat
import Verif.Model.Parsers
import Verif.Model.Production
import Verif.Model.ReflectBox
import Verif.Model.Sanity
import Verif.Model.SliceLike
import Verif.Model.StrParsers
import Verif.Model.StrTransformers
import Verif.Model.Strconv
import Verif.Model.Time
import Verif.Model.Tracer
import Verif.Model.Transformers
import Verif.Model.Traverse
import Verif.Model.Types
import Verif.Model.Utf8
import Verif.Model.Util
import Verif.Props.Algebra
import Verif.Props.Box
import Verif.Props.Callback
import Verif.Props.CallsBelow
import Verif.Props.CharConst
import Verif.Props.Clean
import Verif.Props.Combinators
import Verif.Props.Combinators2
import Verif.Props.Cost
import Verif.Props.Cover
import Verif.Props.CsvCost
import Verif.Props.CsvErrors
import Verif.Props.CsvExact
import Verif.Props.CsvParse
import Verif.Props.CsvParts
import Verif.Props.CsvTotal
import Verif.Props.DateParse
import Verif.Props.DateTime
import Verif.Props.Denotation
import Verif.Props.Depth
import Verif.Props.DepthBelow
import Verif.Props.Elementary
import Verif.Props.Expressive
import Verif.Props.Footprint
import Verif.Props.Formula
import Verif.Props.FormulaBlame
import Verif.Props.FormulaCalls
import Verif.Props.FormulaExact
import Verif.Props.FormulaParse
import Verif.Props.FormulaParts
import Verif.Props.FormulaTotal
import Verif.Props.Goroutines
import Verif.Props.Grammars
import Verif.Props.Greedy
import Verif.Props.Heap
import Verif.Props.IntLit
import Verif.Props.Items
import Verif.Props.LL1
import Verif.Props.Lazy
import Verif.Props.Linear
import Verif.Props.Literals
import Verif.Props.Local
import Verif.Props.Longest
import Verif.Props.Loop
import Verif.Props.Loose
import Verif.Props.Lossless
import Verif.Props.Marshal
import Verif.Props.Message
import Verif.Props.Minimal
import Verif.Props.NumberErrors
import Verif.Props.Objects
import Verif.Props.OpTable
import Verif.Props.ParseFloat
import Verif.Props.Peg
import Verif.Props.Pipeline
import Verif.Props.Position
import Verif.Props.Production
import Verif.Props.Programs
import Verif.Props.ProgramsFloat
import Verif.Props.ReflectBox
import Verif.Props.Relational
import Verif.Props.SafeMatch
import Verif.Props.SliceLike
import Verif.Props.StackMachine
import Verif.Props.StrTerminals
import Verif.Props.StrTerminals2
import Verif.Props.Termination
import Verif.Props.ToRpnHeap
import Verif.Props.Tracer
import Verif.Props.Transformers
import Verif.Props.Traverse
import Verif.Props.TraverseRun
import Verif.Props.TryCount
import Verif.Props.Twin
import Verif.Props.UnicodeIdent
import Verif.Props.ViablePrefix
import Verif.Spec.Algebra
import Verif.Spec.BigStep
import Verif.Spec.Blame
import Verif.Spec.Box
import Verif.Spec.Calendar
import Verif.Spec.Callback
import Verif.Spec.CharConst
import Verif.Spec.Clean
import Verif.Spec.Combinators
import Verif.Spec.Concurrent
import Verif.Spec.Cost
import Verif.Spec.Cover
import Verif.Spec.Csv
import Verif.Spec.CsvErrors
import Verif.Spec.Depth
import Verif.Spec.Expression
import Verif.Spec.Expressive
import Verif.Spec.Float
import Verif.Spec.Ford
import Verif.Spec.Formula
import Verif.Spec.Grammar
import Verif.Spec.Heap
import Verif.Spec.Identifier
import Verif.Spec.IntLit
import Verif.Spec.Items
import Verif.Spec.Language
import Verif.Spec.Lazy
import Verif.Spec.Linear
import Verif.Spec.Lines
import Verif.Spec.Literals
import Verif.Spec.Local
import Verif.Spec.Loop
import Verif.Spec.Loose
import Verif.Spec.Marshal
import Verif.Spec.Match
import Verif.Spec.Message
import Verif.Spec.NumberErrors
import Verif.Spec.NumberText
import Verif.Spec.Numeral
import Verif.Spec.Objects
import Verif.Spec.OpTable
import Verif.Spec.Peg
import Verif.Spec.Precedence
import Verif.Spec.Production
import Verif.Spec.ReflectBox
import Verif.Spec.Relational
import Verif.Spec.SliceLike
import Verif.Spec.StackMachine
import Verif.Spec.SumText
import Verif.Spec.Termination
import Verif.Spec.Text
import Verif.Spec.ToRpnHeap
import Verif.Spec.Tracer
import Verif.Spec.Transform
import Verif.Spec.Traverse
import Verif.Spec.TraverseRun
import Verif.Spec.TryCount
import Verif.Spec.Twin
import Verif.Spec.ViablePrefix
