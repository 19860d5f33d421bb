import Verif.Spec.Precedence
import Verif.Spec.Text
import Verif.Spec.Literals
import Verif.Spec.Numeral
/-
Specification of arithmetic expressions as trees, their values, and the texts that denote them.
-/
namespace Takenoco.Spec

/-- An arithmetic expression. -/
inductive Expr where
  | lit (n : Nat)
  | neg (e : Expr)
  | bin (op : BinOp) (l r : Expr)

/-- Interpretation of an expression; `none` if an operation has no result. -/
def Expr.fold {D : Type} (lit : Nat → D) (neg : D → D) (bin : BinOp → D → D → Option D) : Expr → Option D
  | .lit n => some (lit n)
  | .neg e => (fold lit neg bin e).map neg
  | .bin op l r => (fold lit neg bin l).bind fun a => (fold lit neg bin r).bind fun b => bin op a b

/-- The value in wrapping `int64` arithmetic; `none` if there is a division by zero. -/
def Expr.value : Expr → Option Int64 := Expr.fold (fun n => Int64.ofInt n) int64Neg int64Op

/-- The postfix form, in which the minus sign of a number is folded into the number. -/
def Expr.postfix : Expr → Rpn
  | .lit n => .int (Int64.ofInt n)
  | .neg e => e.postfix.neg
  | .bin op l r => Rpn.bin op l.postfix r.postfix

/-- White space: tab, the line breaks, space, NEL and no-break space. -/
def White (ch : Char) : Prop := ch ∈ ['\t', '\n', '\x0b', '\x0c', '\r', ' ', '\u0085', '\u00a0']

/-- A text of white space. -/
def Blanks (b : Bytes) : Prop := ∃ t : List Char, (∀ ch ∈ t, White ch) ∧ b = utf8s t

/-- The text of a number: decimal digits and underscores, starting with a digit, a zero only alone. -/
structure NumberText (w : Bytes) (n : Nat) : Prop where
  start : StartsWith isDec w
  shape : natRun w = w
  value : Numeral 10 (withoutUnderscores w) n
  small : n < 2 ^ 63

/-- The levels of the grammar of expressions. -/
inductive Level where
  | atom | unary | product | sum

/-- The text denotes the expression, at the level. Every token may be followed by white space. -/
inductive Writes : Level → Expr → Bytes → Prop where
  | lit {w b : Bytes} {n : Nat} : NumberText w n → Blanks b → Writes .atom (.lit n) (w ++ b)
  | paren {b₁ b₂ s : Bytes} {e : Expr} : Blanks b₁ → Writes .sum e s → Blanks b₂ →
      Writes .atom e (0x28 :: (b₁ ++ (s ++ 0x29 :: b₂)))
  | atom {s : Bytes} {e : Expr} : Writes .atom e s → Writes .unary e s
  | neg {b s : Bytes} {e : Expr} : Blanks b → Writes .unary e s → Writes .unary (.neg e) (0x2d :: (b ++ s))
  | unary {s : Bytes} {e : Expr} : Writes .unary e s → Writes .product e s
  | mul {op : BinOp} {s b t : Bytes} {l r : Expr} : op.tight = true → Writes .product l s → Blanks b → Writes .unary r t →
      Writes .product (.bin op l r) (s ++ op.char :: (b ++ t))
  | product {s : Bytes} {e : Expr} : Writes .product e s → Writes .sum e s
  | add {op : BinOp} {s b t : Bytes} {l r : Expr} : op.tight = false → Writes .sum l s → Blanks b → Writes .product r t →
      Writes .sum (.bin op l r) (s ++ op.char :: (b ++ t))

/-- The text of a whole expression may start with white space. -/
def Denotes (s : Bytes) (e : Expr) : Prop := ∃ b s', s = b ++ s' ∧ Blanks b ∧ Writes .sum e s'

end Takenoco.Spec
