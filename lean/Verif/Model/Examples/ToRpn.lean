import Verif.Model.Examples.Formula
/-
Layer A model of /repo/_examples/torpn (torpn.go, helper.go, precedence.go). torpn.go:1-143 and helper.go
are textually the same grammar as the formula example except for the package name; the parts that do
not depend on the production rules are shared with the model of that example.
-/
namespace Takenoco.ToRpn
open Gram
open Formula (sp0 unaryOperator simpleExpression binaryOperator isOperator anyOperand checkG ParseRes asInt)

/-- The type assertion `v.(AstSlice)`. -/
def asList : Value → Out (List Ast)
  | .list l => .ok l
  | _ => .panic .typeAssert

/-- `transformUnaryOp`: precedence.go:52-80. -/
def unaryTr : TSem := fun _ asts => do
  let a1 ← goGet asts 1
  match a1.ty with
  | .int =>
    let opcode ← asStr (← goGet asts 0).val
    let op1 ← asInt a1.val
    let v := if opcode = b! "-" then -op1 else 0
    return ([{ Ast.zero with ty := .int, cls := "Number", val := .int v }], none)
  | .listOfAst =>
    let ret ← asList a1.val
    let a0 ← goGet asts 0
    return ([{ Ast.zero with ty := .listOfAst, cls := "List", val := .list (ret ++ [a0]) }], none)
  | _ => return ([], some (.msg "Cannot apply unary - operator"))

/-- One operand of `transformBinaryOp`: precedence.go:86-93, 95-102. -/
def operandItems (a : Ast) : Out (Option (List Ast)) :=
  match a.ty with
  | .int => .ok (some [a])
  | .listOfAst => do return some (← asList a.val)
  | _ => .ok none

/-- `transformBinaryOp`: precedence.go:82-111. (The error text contains the operator; kept abstract.) -/
def binaryTr : TSem := fun _ asts => do
  let a1 ← goGet asts 1
  let _opcode ← asStr a1.val
  match ← operandItems (← goGet asts 0) with
  | none => return ([], some (.msg "Cannot apply binary operator"))
  | some l =>
    match ← operandItems (← goGet asts 2) with
    | none => return ([], some (.msg "Cannot apply binary operator"))
    | some r =>
      return ([{ Ast.zero with ty := .listOfAst, cls := "List", val := .list (l ++ r ++ [a1]) }], none)

/-- precedence.go:11-22 -/
def unaryRule : Gram :=
  .trans (.flatGroup [isOperator "UnaryOperator" [b! "-"], anyOperand]) [.fn unaryTr]
/-- precedence.go:25-36 -/
def mulDivRule : Gram :=
  .trans (.flatGroup [anyOperand, isOperator "BinaryOperator" [b! "*", b! "/"], anyOperand]) [.fn binaryTr]
/-- precedence.go:39-50 -/
def addSubRule : Gram :=
  .trans (.flatGroup [anyOperand, isOperator "BinaryOperator" [b! "+", b! "-"], anyOperand]) [.fn binaryTr]

/-- precedence.go:114-118 -/
def precedences : List (List Gram × Bool) :=
  [([unaryRule], true), ([mulDivRule], false), ([addSubRule], false)]

/-- precedence.go:121-126 -/
def formulaProductionRules : Tr := .production precedences checkG

/-- The name under which `groupedExpresion` is passed to `Indirect`. -/
def groupedName : Nat := 0

/-- `expressionInner`: torpn.go:103-125. -/
def expressionInner : Gram :=
  .flatGroup [
    star [unaryOperator],
    .first [simpleExpression, .indirect groupedName, .prim (errorP "Value required")],
    star [
      binaryOperator,
      .first [
        .flatGroup [star [unaryOperator], .first [simpleExpression, .indirect groupedName]],
        .prim (errorP "Error in the expression after the binary operator")]]]

/-- `expression`: torpn.go:128-133. -/
def expression : Gram := .trans expressionInner [formulaProductionRules]

/-- `groupedExpresion`: torpn.go:87-100. -/
def groupedExpression : Gram :=
  .flatGroup [
    erased (.prim (charClass [b! "("])),
    .first [
      .flatGroup [erased sp0, expression, erased (.prim (charClass [b! ")"])), erased sp0],
      .prim (errorP "Error in grouped expression")]]

/-- The grammar functions passed to `Indirect`. -/
def env : Env := fun _ => groupedExpression

/-- `program`: torpn.go:136-143. -/
def program : Gram := .flatGroup [.prim startP, erased sp0, expression, .prim endS]

/-- The part of `Parse` after `rootParser` has returned: torpn.go:147-178. -/
def finish (s : Bytes) (r : PRes) : Out (ParseRes (List Value)) := do
  match r with
  | (out, some e) => return .failed (some e) (← getLineAndCol s out.pos 4)
  | (out, none) =>
    if out.status = .matched then
      let a ← goGet out.stack 0
      match a.ty with
      | .int => return .value [.int (← asInt a.val)]
      | .listOfAst => return .value ((← asList a.val).map (·.val))
      | _ => return .failed (some (.msg "Unexpected: no result")) ⟨0, 0, 0, 0, []⟩
    else return .failed none (← getLineAndCol s out.pos 4)

/-- `Parse`: torpn.go:146-179. -/
def parse (fuel : Nat) (s : Bytes) : Out (ParseRes (List Value)) := do
  finish s (← run env fuel program (newStrCtx s))

end Takenoco.ToRpn
