import Verif.Model.Heap
import Verif.Model.Examples.ToRpn
/-
The production rules of /repo/_examples/torpn once more, with the lists that are built as Go slices: windows on arrays, which `append`
writes to. Models the same code as `Verif.Model.Examples.ToRpn` (precedence.go) and `Verif.Model.Production` (base/production.go), for
these rules.

Simplifications: the parsers of a rule only read, and put what they have matched on the stack; so their part of a rule is a function
(`unaryMatch`, `binaryMatch`), and the slices in which `production.go` keeps the ASTs themselves are lists. What `append` does with those is
the subject of `Verif.Model.Heap`.
-/
namespace Takenoco.ToRpnHeap
open Heap
open Formula (asInt makeOpMatcher)

/-- An AST: its `Value` is an `AstSlice`, or something that is not written to. -/
inductive Item where
  | plain (a : Ast)
  | list (a : Ast) (s : Slice)

/-- What is in the AST itself. (The contents of the array do not matter for type assertions to other types.) -/
def Item.head : Item → Ast
  | .plain a => a
  | .list a _ => { a with val := .list [] }

/-- The type assertion `v.(AstSlice)` (precedence.go:70, 90, 99). -/
def Item.asSlice : Item → Out Slice
  | .plain _ => .panic .typeAssert
  | .list _ s => .ok s

/-- A computation that does not use the memory. -/
def lift {α : Type} (x : Out α) : HM α := fun m =>
  match x with
  | .ok a => .ok (a, m)
  | .panic p => .panic p
  | .timeout => .timeout

/-- `transformUnaryOp`: precedence.go:52-80. `append(ret, asts[0])` may write to the array of the operand. (The rule has checked that the
value of `asts[0]` is a string.) -/
def unaryOp (w : World) (asts : List Item) : HM (List Item × Option Err) := do
  let a1 ← lift (goGet asts 1)
  match a1.head.ty with
  | .int =>
    let a0 ← lift (goGet asts 0)
    let opcode ← lift (asStr a0.head.val)
    let op1 ← lift (asInt a1.head.val)
    let v := if opcode = b! "-" then -op1 else 0
    return ([.plain { Ast.zero with ty := .int, cls := "Number", val := .int v }], none)
  | .listOfAst =>
    let ret ← lift a1.asSlice
    let a0 ← lift (goGet asts 0)
    let ret ← append w ret [a0.head]
    return ([.list { Ast.zero with ty := .listOfAst, cls := "List" } ret], none)
  | _ => return ([], some (.msg "Cannot apply unary - operator"))

/-- One operand of `transformBinaryOp`: precedence.go:86-93, 95-102. -/
def appendOperand (w : World) (ret : Slice) (a : Item) : HM (Option Slice) :=
  match a.head.ty with
  | .int => do return some (← append w ret [a.head])
  | .listOfAst => do
    let s ← lift a.asSlice
    let l ← load s
    return some (← append w ret l)
  | _ => pure none

/-- `transformBinaryOp`: precedence.go:82-111. (The error text contains the operator; kept abstract.) -/
def binaryOp (w : World) (asts : List Item) : HM (List Item × Option Err) := do
  let a1 ← lift (goGet asts 1)
  let _opcode ← lift (asStr a1.head.val)
  let ret ← make [] 3
  let a0 ← lift (goGet asts 0)
  match ← appendOperand w ret a0 with
  | none => return ([], some (.msg "Cannot apply binary operator"))
  | some ret =>
    let a2 ← lift (goGet asts 2)
    match ← appendOperand w ret a2 with
    | none => return ([], some (.msg "Cannot apply binary operator"))
    | some ret =>
      let ret ← append w ret [a1.head]
      return ([.list { Ast.zero with ty := .listOfAst, cls := "List" } ret], none)

section
variable {α : Type} (head : α → Ast)

/-- `FlatGroup(isOperator("UnaryOperator", []string{"-"}), anyOperand())` at index `p`: precedence.go:14-17. -/
def unaryMatch (l : List α) (p : Nat) : Out (Option (List α)) :=
  match l[p]? with
  | none => .ok none
  | some o =>
    match makeOpMatcher "UnaryOperator" [b! "-"] (.ast (head o)) with
    | .panic x => .panic x
    | .timeout => .timeout
    | .ok false => .ok none
    | .ok true =>
      match l[p + 1]? with
      | none => .ok none
      | some a => .ok (some [o, a])

/-- `FlatGroup(anyOperand(), isOperator("BinaryOperator", ops), anyOperand())` at index `p`: precedence.go:28-32, 42-46. -/
def binaryMatch (ops : List Bytes) (l : List α) (p : Nat) : Out (Option (List α)) :=
  match l[p]? with
  | none => .ok none
  | some a =>
    match l[p + 1]? with
    | none => .ok none
    | some o =>
      match makeOpMatcher "BinaryOperator" ops (.ast (head o)) with
      | .panic x => .panic x
      | .timeout => .timeout
      | .ok false => .ok none
      | .ok true =>
        match l[p + 2]? with
        | none => .ok none
        | some b => .ok (some [a, o, b])
end

/-- How the search of one round ends. -/
inductive Found where
  | noMatch
  | rewritten (l : List Item)
  | err (e : Err)

/-- A precedence with one rule: what it matches, its transformer, and the direction (precedence.go:11-50). -/
structure Level where
  find : List Item → Nat → Out (Option (List Item))
  make : List Item → HM (List Item × Option Err)
  rtol : Bool

/-- `precedences`: precedence.go:114-118. -/
def levels (w : World) : List Level :=
  [⟨unaryMatch Item.head, unaryOp w, true⟩,
   ⟨binaryMatch Item.head [b! "*", b! "/"], binaryOp w, false⟩,
   ⟨binaryMatch Item.head [b! "+", b! "-"], binaryOp w, false⟩]

/-- The rule at position `p`: base/production.go:38-62, and the call of the transformer, base/base.go:153-163. -/
def tryRule (v : Level) (l : List Item) (p : Nat) : HM Found := do
  match ← lift (v.find l p) with
  | none => return .noMatch
  | some args =>
    match ← v.make args with
    | (_, some e) => return .err e
    | (r, none) => return .rewritten (l.take p ++ r ++ l.drop (p + args.length))

/-- The loop over the positions: base/production.go:37-63. -/
def tryPositions (v : Level) (l : List Item) : Nat → Nat → HM Found
  | 0, _ => pure .noMatch
  | k + 1, i => do
    match ← tryRule v l (if v.rtol then l.length - i else i) with
    | .noMatch => tryPositions v l k (i + 1)
    | r => return r

/-- The loop over the precedences: base/production.go:34-64. -/
def tryLevels (l : List Item) : List Level → HM Found
  | [] => pure .noMatch
  | v :: vs => do
    match ← tryPositions v l (l.length + 1) 0 with
    | .noMatch => tryLevels l vs
    | r => return r

/-- The outer loop: base/production.go:31-74, with fuel. The check, `FlatGroup(Start(), objparser.Any(), objparser.End())`
(precedence.go:124), accepts a list of one AST. -/
def productionLoop (w : World) : Nat → List Item → HM (List Item × Option Err)
  | 0, _ => timeout
  | n + 1, l => do
    match ← tryLevels l (levels w) with
    | .err e => return ([], some e)
    | .noMatch =>
      if l.length = 1 then return (l, none)
      else return ([], some (.msg "Production rules are not matched."))
    | .rewritten l' =>
      if l'.length = 1 then return (l', none)
      else productionLoop w n l'

end Takenoco.ToRpnHeap
