import Verif.Spec.Expression
/-
Specification of exactly the texts that the formula and torpn examples accept. They are the texts of `Denotes` and two more
kinds of numbers: a number may have a plus sign in front, without white space between, and `-9223372036854775808` is a number
where the operand follows an operator whose left neighbour is a number too.
-/
namespace Takenoco.Spec

/-- Decimal digits and underscores, starting with a digit, a zero only alone; of any size. -/
structure DigitsText (w : Bytes) (n : Nat) : Prop where
  start : StartsWith isDec w
  shape : natRun w = w
  value : Numeral 10 (withoutUnderscores w) n

/-- `Spells l p q e s`: the text `s` is accepted as the expression `e` at the level `l`. `p` tells whether the text stands
after an operator that follows a number, `q` whether the last operand of the text is a number and not a group. -/
inductive Spells : Level → Bool → Bool → Expr → Bytes → Prop where
  | lit {p : Bool} {w b : Bytes} {n : Nat} : DigitsText w n → n < 2 ^ 63 → Blanks b → Spells .atom p true (.lit n) (w ++ b)
  | plus {p : Bool} {w b : Bytes} {n : Nat} : DigitsText w n → n < 2 ^ 63 → Blanks b → Spells .atom p true (.lit n) (0x2b :: (w ++ b))
  | paren {p q : Bool} {b₁ b₂ s : Bytes} {e : Expr} : Blanks b₁ → Spells .sum false q e s → Blanks b₂ →
      Spells .atom p false e (0x28 :: (b₁ ++ (s ++ 0x29 :: b₂)))
  | atom {p q : Bool} {s : Bytes} {e : Expr} : Spells .atom p q e s → Spells .unary p q e s
  | neg {p q : Bool} {b s : Bytes} {e : Expr} : Blanks b → Spells .unary false q e s → Spells .unary p q (.neg e) (0x2d :: (b ++ s))
  | min {w b : Bytes} : DigitsText w (2 ^ 63) → Blanks b → Spells .unary true true (.neg (.lit (2 ^ 63))) (0x2d :: (w ++ b))
  | unary {p q : Bool} {s : Bytes} {e : Expr} : Spells .unary p q e s → Spells .product p q e s
  | mul {p q r : Bool} {op : BinOp} {s b t : Bytes} {x y : Expr} : op.tight = true → Spells .product p q x s → Blanks b →
      Spells .unary q r y t → Spells .product p r (.bin op x y) (s ++ op.char :: (b ++ t))
  | product {p q : Bool} {s : Bytes} {e : Expr} : Spells .product p q e s → Spells .sum p q e s
  | add {p q r : Bool} {op : BinOp} {s b t : Bytes} {x y : Expr} : op.tight = false → Spells .sum p q x s → Blanks b →
      Spells .product q r y t → Spells .sum p r (.bin op x y) (s ++ op.char :: (b ++ t))

/-- The text of a whole expression may start with white space. -/
def Spelled (s : Bytes) (e : Expr) : Prop := ∃ b s' q, s = b ++ s' ∧ Blanks b ∧ Spells .sum false q e s'

/-- A part of the text is an expression without value. -/
def NoValueWithin (s : Bytes) : Prop := ∃ a m b q e, s = a ++ m ++ b ∧ Spells .sum false q e m ∧ e.value = none

end Takenoco.Spec
