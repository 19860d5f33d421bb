import Verif.Spec.Formula
import Verif.Model.Types
/-
Specification of the errors that the formula and torpn examples report, and of the position they report with them.
-/
namespace Takenoco.Spec

/-- The text can be completed to an expression. -/
def Viable (u : Bytes) : Prop := ∃ t e, Spelled (u ++ t) e

/-- A number, possibly with a sign in front and white space behind, that is no 64 bit integer. `t` is the number as it is given
to `strconv.ParseInt`. -/
def TooLarge (w t : Bytes) : Prop := ∃ sg d b k, w = sg ++ d ++ b ∧ (sg = [] ∨ sg = [0x2b] ∨ sg = [0x2d]) ∧ DigitsText d k ∧ Blanks b ∧
  2 ^ 63 ≤ k ∧ (sg = [0x2d] → 2 ^ 63 < k) ∧ t = sg ++ withoutUnderscores d

/-- `Blamed e u`: the error `e` is reported behind the text `u`. -/
inductive Blamed : Err → Bytes → Prop where
  /-- A value is missing at the start of the text, behind an opening parenthesis, or behind a minus sign. -/
  | value {a b : Bytes} : Viable (a ++ b) → Blanks b → (a = [] ∨ ∃ a', a = a' ++ [0x28] ∨ a = a' ++ [0x2d]) → Blamed (.msg "Value required") (a ++ b)
  /-- Something is wrong behind a binary operator. -/
  | operand {a b : Bytes} {op : BinOp} : Viable (a ++ op.char :: b) → Blanks b →
      Blamed (.msg "Error in the expression after the binary operator") (a ++ op.char :: b)
  /-- Something is wrong behind an opening parenthesis. -/
  | group {a : Bytes} : Viable (a ++ [0x28]) → Blamed (.msg "Error in grouped expression") (a ++ [0x28])
  /-- A number is too large. -/
  | range {a w t : Bytes} : Viable a → TooLarge w t → Blamed (.strconv t .range) (a ++ w)

end Takenoco.Spec
