import Verif.Model.Types
/-
Specification vocabulary for numerals: digits are given by the two alphabets, values by Horner's rule.
-/
namespace Takenoco.Spec

/-- The digits, small letters. -/
def lowerDigits : Bytes := b! "0123456789abcdefghijklmnopqrstuvwxyz"
/-- The digits, capital letters. -/
def upperDigits : Bytes := b! "0123456789ABCDEFGHIJKLMNOPQRSTUVWXYZ"

/-- The byte `b` is a digit of the base with value `v`. -/
def DigitOf (base : Nat) (b : UInt8) (v : Nat) : Prop :=
  v < base ∧ (lowerDigits[v]? = some b ∨ upperDigits[v]? = some b)

/-- `Numeral base s n`: the nonempty digit string `s` denotes `n`. -/
inductive Numeral (base : Nat) : Bytes → Nat → Prop where
  | digit {b : UInt8} {v : Nat} : DigitOf base b v → Numeral base [b] v
  | snoc {s : Bytes} {b : UInt8} {n v : Nat} : Numeral base s n → DigitOf base b v →
      Numeral base (s ++ [b]) (n * base + v)

/-- A numeral with an optional sign. -/
inductive SignedNumeral (base : Nat) : Bytes → Int → Prop where
  | none {s : Bytes} {n : Nat} : Numeral base s n → SignedNumeral base s n
  | plus {s : Bytes} {n : Nat} : Numeral base s n → SignedNumeral base (b! "+" ++ s) n
  | minus {s : Bytes} {n : Nat} : Numeral base s n → SignedNumeral base (b! "-" ++ s) (-n)

end Takenoco.Spec
