import Verif.Model.Extra
import Verif.Model.Util
/-
Layer A model of /repo/_examples/formula (formula.go, helper.go, precedence.go).
-/
namespace Takenoco.Formula
open Gram

/-- `sp0`: formula.go:26-28. -/
def sp0 : Gram := erased (star [.prim whitespace])

/-- The transformer of `number`: formula.go:38-49. -/
def numberTr : TSem := fun _ asts =>
  match asts with
  | [] => .panic .index
  | a :: _ =>
    match asStr a.val with
    | .panic p => .panic p
    | .timeout => .timeout
    | .ok s =>
      match parseInt s 10 with
      | .error e => .ok ([], some (.strconv s e))
      | .ok v => .ok ([{ Ast.zero with ty := .int, cls := "Number", val := .int (Int64.ofInt v) }], none)

/-- `number`: formula.go:31-51. -/
def numberG : Gram :=
  .trans (.flatGroup [Extra.integerNumberStr, .prim wordBoundary, erased sp0]) [.fn numberTr]

/-- `unaryOperator`: formula.go:54-62. -/
def unaryOperator : Gram :=
  .trans (.flatGroup [.prim (charClass [b! "-"]), erased sp0]) [.fn (changeClassName "UnaryOperator")]

/-- `binaryOperator`: formula.go:65-73. -/
def binaryOperator : Gram :=
  .trans (.flatGroup [.prim (charClass [b! "+", b! "-", b! "*", b! "/"]), erased sp0])
    [.fn (changeClassName "BinaryOperator")]

/-- `simpleExpression`: formula.go:76-84. -/
def simpleExpression : Gram := .flatGroup [numberG, star [binaryOperator, numberG]]

/-- `unwrapOperandItem`: helper.go:8-10. -/
def unwrapOperandItem : TSem := fun _ asts =>
  match asts with
  | [] => .panic .index
  | a :: _ =>
    match a.val with
    | .ast b => .ok ([b], none)
    | _ => .panic .typeAssert

/-- `makeOpMatcher`: helper.go:12-26. -/
def makeOpMatcher (cls : String) (ops : List Bytes) (c : Value) : Out Bool :=
  match c with
  | .ast ast =>
    if ast.cls ≠ cls then .ok false
    else
      match asStr ast.val with
      | .ok v => .ok (ops.any (· == v))
      | .panic p => .panic p
      | .timeout => .timeout
  | _ => .ok false

/-- `anyOperand`: helper.go:29-31. -/
def anyOperand : Gram := .trans (.prim objAny) [.fn unwrapOperandItem]

/-- `isOperator`: helper.go:34-36. -/
def isOperator (cls : String) (ops : List Bytes) : Gram :=
  .trans (.prim (objClassFn (makeOpMatcher cls ops))) [.fn unwrapOperandItem]

/-- The type assertion `v.(int64)`. -/
def asInt : Value → Out Int64
  | .int i => .ok i
  | _ => .panic .typeAssert

/-- `AstSlice{{ClassName: "Number", Value: v}}` (precedence.go:26-29, 58-61, 89-92). -/
def numAst (v : Int64) : Ast := { Ast.zero with cls := "Number", val := .int v }

/-- The transformer of `expressionRule3`: precedence.go:16-30. -/
def unaryTr : TSem := fun _ asts => do
  let opcode ← asStr (← goGet asts 0).val
  let op1 ← asInt (← goGet asts 1).val
  let v := if opcode = b! "-" then -op1 else 0
  return ([numAst v], none)

/-- The transformer of `expressionRule2`: precedence.go:45-62. Division by zero panics. -/
def mulDivTr : TSem := fun _ asts => do
  let opcode ← asStr (← goGet asts 1).val
  let op1 ← asInt (← goGet asts 0).val
  let op2 ← asInt (← goGet asts 2).val
  if opcode = b! "*" then return ([numAst (op1 * op2)], none)
  else if opcode = b! "/" then
    if op2 = 0 then .panic .divZero else return ([numAst (op1 / op2)], none)
  else return ([numAst 0], none)

/-- The transformer of `expressionRule1`: precedence.go:76-93. -/
def addSubTr : TSem := fun _ asts => do
  let opcode ← asStr (← goGet asts 1).val
  let op1 ← asInt (← goGet asts 0).val
  let op2 ← asInt (← goGet asts 2).val
  let v := if opcode = b! "+" then op1 + op2 else if opcode = b! "-" then op1 - op2 else 0
  return ([numAst v], none)

/-- `expressionRule3.Rules[0]`: precedence.go:11-31. -/
def unaryRule : Gram :=
  .trans (.flatGroup [isOperator "UnaryOperator" [b! "-"], anyOperand]) [.fn unaryTr]

/-- `expressionRule2.Rules[0]`: precedence.go:39-63. -/
def mulDivRule : Gram :=
  .trans (.flatGroup [anyOperand, isOperator "BinaryOperator" [b! "*", b! "/"], anyOperand]) [.fn mulDivTr]

/-- `expressionRule1.Rules[0]`: precedence.go:70-94. -/
def addSubRule : Gram :=
  .trans (.flatGroup [anyOperand, isOperator "BinaryOperator" [b! "+", b! "-"], anyOperand]) [.fn addSubTr]

/-- `precedences`: precedence.go:99-103. -/
def precedences : List (List Gram × Bool) :=
  [([unaryRule], true), ([mulDivRule], false), ([addSubRule], false)]

/-- `FlatGroup(Start(), objparser.Any(), objparser.End())`: precedence.go:109. -/
def checkG : Gram := .flatGroup [.prim startP, .prim objAny, .prim objEnd]

/-- `formulaProductionRules`: precedence.go:106-111. -/
def formulaProductionRules : Tr := .production precedences checkG

/-- The name under which `groupedExpresion` is passed to `Indirect`. -/
def groupedName : Nat := 0

/-- `expressionInner`: formula.go:103-125. -/
def expressionInner : Gram :=
  .flatGroup [
    star [unaryOperator],
    .first [simpleExpression, .indirect groupedName, .prim (errorP "Value required")],
    star [
      binaryOperator,
      .first [
        .flatGroup [star [unaryOperator], .first [simpleExpression, .indirect groupedName]],
        .prim (errorP "Error in the expression after the binary operator")]]]

/-- `expression`: formula.go:128-133. -/
def expression : Gram := .trans expressionInner [formulaProductionRules]

/-- `groupedExpresion`: formula.go:87-100. -/
def groupedExpression : Gram :=
  .flatGroup [
    erased (.prim (charClass [b! "("])),
    .first [
      .flatGroup [erased sp0, expression, erased (.prim (charClass [b! ")"])), erased sp0],
      .prim (errorP "Error in grouped expression")]]

/-- The grammar functions passed to `Indirect`. -/
def env : Env := fun _ => groupedExpression

/-- `program`: formula.go:136-143. -/
def program : Gram := .flatGroup [.prim startP, erased sp0, expression, .prim endS]

/-- What `Parse` returns: a value, or an error with the position it is reported at (the text is
assembled from the error message and `GetLineAndColPosition`). -/
inductive ParseRes (α : Type) where
  | value (v : α)
  | failed (e : Option Err) (at_ : LineAndCol)

/-- The part of `Parse` after `rootParser` has returned: formula.go:147-166. -/
def finish (s : Bytes) (r : PRes) : Out (ParseRes Int64) := do
  match r with
  | (out, some e) => return .failed (some e) (← getLineAndCol s out.pos 4)
  | (out, none) =>
    if out.status = .matched then return .value (← asInt (← goGet out.stack 0).val)
    else return .failed none (← getLineAndCol s out.pos 4)

/-- `Parse`: formula.go:146-167. -/
def parse (fuel : Nat) (s : Bytes) : Out (ParseRes Int64) := do
  finish s (← run env fuel program (newStrCtx s))

end Takenoco.Formula
