import Verif.Model.Types
/-
Specification of arithmetic expressions: chains of operands and binary operators with the conventional precedence.
-/
namespace Takenoco.Spec

/-- The binary operators. -/
inductive BinOp where
  | add | sub | mul | div

/-- `+`, `-`, `*`, `/` -/
def BinOp.char : BinOp → UInt8
  | .add => 0x2b
  | .sub => 0x2d
  | .mul => 0x2a
  | .div => 0x2f

/-- `*` and `/` bind tighter than `+` and `-`. -/
def BinOp.tight : BinOp → Bool
  | .mul | .div => true
  | .add | .sub => false

/-- A token: an operand, the unary minus or a binary operator. -/
inductive Tok (D : Type) where
  | operand (d : D)
  | neg
  | bin (op : BinOp)

/-- The list of ASTs consists of the given tokens; `Is` says which ASTs are which tokens. -/
inductive Toks {D : Type} (Is : Ast → Tok D → Prop) : List Ast → List (Tok D) → Prop where
  | nil : Toks Is [] []
  | cons {a : Ast} {t : Tok D} {l : List Ast} {ts : List (Tok D)} : Is a t → Toks Is l ts → Toks Is (a :: l) (t :: ts)

/-- Minus signs and the operand they stand before. -/
abbrev Signed (D : Type) := Nat × D

def Signed.toks {D : Type} (x : Signed D) : List (Tok D) := List.replicate x.1 .neg ++ [.operand x.2]

/-- The tokens of `x₀ op₁ x₁ op₂ x₂ …`. -/
def chainToks {D : Type} (x : Signed D) (rest : List (BinOp × Signed D)) : List (Tok D) :=
  x.toks ++ rest.flatMap fun y => .bin y.1 :: y.2.toks

section
variable {D : Type} (neg : D → D) (bin : BinOp → D → D → Option D)

/-- The operand with all signs applied. -/
def applySigns : Nat → D → D
  | 0, d => d
  | n + 1, d => neg (applySigns n d)

/-- Evaluate the products of `d₀ op₁ d₁ op₂ d₂ …`, each from left to right; what is left is a sum. -/
def products : D → List (BinOp × D) → Option (D × List (BinOp × D))
  | d, [] => some (d, [])
  | d, (op, e) :: r =>
    if op.tight then (bin op d e).bind fun d' => products d' r
    else (products e r).map fun x => (d, (op, x.1) :: x.2)

/-- Evaluate `d₀ op₁ d₁ op₂ d₂ …` from left to right. -/
def fromLeft : D → List (BinOp × D) → Option D
  | d, [] => some d
  | d, (op, e) :: r => (bin op d e).bind fun d' => fromLeft d' r

/-- The value of a chain: the signs first, then the products, then the sum. -/
def chainValue (x : Signed D) (rest : List (BinOp × Signed D)) : Option D :=
  (products bin (applySigns neg x.1 x.2) (rest.map fun y => (y.1, applySigns neg y.2.1 y.2.2))).bind
    fun s => fromLeft bin s.1 s.2
end

/-- Wrapping arithmetic on `int64`; division truncates, and there is no quotient by zero. -/
def int64Op : BinOp → Int64 → Int64 → Option Int64
  | .add, a, b => some (Int64.ofInt (a.toInt + b.toInt))
  | .sub, a, b => some (Int64.ofInt (a.toInt - b.toInt))
  | .mul, a, b => some (Int64.ofInt (a.toInt * b.toInt))
  | .div, a, b => if b = 0 then none else some (Int64.ofInt (a.toInt.tdiv b.toInt))

def int64Neg (a : Int64) : Int64 := Int64.ofInt (-a.toInt)

/-- The tokens of the formula example: numbers and operators are told apart by the class name. -/
def NumTok (a : Ast) : Tok Int64 → Prop
  | .operand v => a.cls = "Number" ∧ a.val = .int v
  | .neg => a.cls = "UnaryOperator" ∧ a.val = .str [BinOp.sub.char]
  | .bin op => a.cls = "BinaryOperator" ∧ a.val = .str [op.char]

/-- An expression in postfix form: a folded number, or the list of its items. -/
inductive Rpn where
  | int (v : Int64)
  | list (items : List Value)

/-- The items of a postfix expression. -/
def Rpn.items : Rpn → List Value
  | .int v => [.int v]
  | .list l => l

/-- The minus sign is folded into a number; otherwise it is an item of its own. -/
def Rpn.neg : Rpn → Rpn
  | .int v => .int (int64Neg v)
  | .list l => .list (l ++ [.str [BinOp.sub.char]])

/-- Operands first, then the operator. -/
def Rpn.bin (op : BinOp) (a b : Rpn) : Rpn := .list (a.items ++ b.items ++ [.str [op.char]])

/-- The tokens of the torpn example. -/
def RpnTok (a : Ast) : Tok Rpn → Prop
  | .operand (.int v) => a.cls = "Number" ∧ a.ty = .int ∧ a.val = .int v
  | .operand (.list items) => a.cls = "List" ∧ a.ty = .listOfAst ∧ ∃ l, a.val = .list l ∧ l.map (·.val) = items
  | .neg => a.cls = "UnaryOperator" ∧ a.val = .str [BinOp.sub.char]
  | .bin op => a.cls = "BinaryOperator" ∧ a.val = .str [op.char]

end Takenoco.Spec
