import Verif.Spec.Expression
/-
Specification of the usual evaluation of postfix notation with a stack of numbers.
-/
namespace Takenoco.Spec

/-- The operators that a postfix evaluator knows: all of them take two operands. -/
def opOfChar (ch : UInt8) : Option BinOp :=
  if ch = 0x2b then some .add else if ch = 0x2d then some .sub else if ch = 0x2a then some .mul else if ch = 0x2f then some .div else none

/-- One item: a number is pushed, an operator replaces the two topmost numbers by its result. `none` if there is no operator
like that, fewer than two numbers, or no result. The head of the list is the top of the stack. -/
def stackStep : Value → List Int64 → Option (List Int64)
  | .int v, st => some (v :: st)
  | .str [ch], b :: a :: st => (opOfChar ch).bind fun op => (int64Op op a b).map fun v => v :: st
  | _, _ => none

/-- All items in turn. -/
def stackRun : List Value → List Int64 → Option (List Int64)
  | [], st => some st
  | x :: l, st => (stackStep x st).bind fun st' => stackRun l st'

/-- Minus signs and a number. -/
inductive SignedNumber : Expr → Prop where
  | lit (n : Nat) : SignedNumber (.lit n)
  | neg {e : Expr} : SignedNumber e → SignedNumber (.neg e)

/-- Minus signs, other than the subtraction, stand before numbers only and not before a group. -/
inductive SignsOnNumbers : Expr → Prop where
  | lit (n : Nat) : SignsOnNumbers (.lit n)
  | neg {e : Expr} : SignedNumber e → SignsOnNumbers (.neg e)
  | bin {op : BinOp} {l r : Expr} : SignsOnNumbers l → SignsOnNumbers r → SignsOnNumbers (.bin op l r)

end Takenoco.Spec
