import Verif.Spec.Numeral
/-
Integer literals of the Go language ("Integer literals" in the Go specification), which `strconv` reads when the base is 0.
-/
namespace Takenoco.Spec

/-- `digit { [ "_" ] digit }`: digits of the base, with single underscores between them. The number is their value. -/
inductive UDigits (base : Nat) : Bytes → Nat → Prop where
  | digit {b : UInt8} {v : Nat} : DigitOf base b v → UDigits base [b] v
  | snoc {s : Bytes} {b : UInt8} {n v : Nat} : UDigits base s n → DigitOf base b v → UDigits base (s ++ [b]) (n * base + v)
  | under {s : Bytes} {b : UInt8} {n v : Nat} : UDigits base s n → DigitOf base b v → UDigits base (s ++ b! "_" ++ [b]) (n * base + v)

/-- The letter after the 0, and the base it stands for. -/
inductive BaseLetter : Bytes → Nat → Prop where
  | octal : BaseLetter [] 8
  | b : BaseLetter (b! "b") 2
  | B : BaseLetter (b! "B") 2
  | o : BaseLetter (b! "o") 8
  | O : BaseLetter (b! "O") 8
  | x : BaseLetter (b! "x") 16
  | X : BaseLetter (b! "X") 16

/-- `int_lit`: the literal denotes the number. -/
inductive IntLit : Bytes → Nat → Prop where
  | zero : IntLit (b! "0") 0
  | decimal {s : Bytes} {n : Nat} : UDigits 10 s n → s.head? ≠ some 0x30 → IntLit s n
  | based {l s : Bytes} {base n : Nat} : BaseLetter l base → UDigits base s n → IntLit (b! "0" ++ l ++ s) n
  | basedUnder {l s : Bytes} {base n : Nat} : BaseLetter l base → UDigits base s n → IntLit (b! "0" ++ l ++ b! "_" ++ s) n

/-- A literal with an optional sign. -/
inductive SignedIntLit : Bytes → Int → Prop where
  | none {s : Bytes} {n : Nat} : IntLit s n → SignedIntLit s n
  | plus {s : Bytes} {n : Nat} : IntLit s n → SignedIntLit (b! "+" ++ s) n
  | minus {s : Bytes} {n : Nat} : IntLit s n → SignedIntLit (b! "-" ++ s) (-n)

/-- A literal with an optional plus sign. -/
inductive PlusIntLit : Bytes → Nat → Prop where
  | none {s : Bytes} {n : Nat} : IntLit s n → PlusIntLit s n
  | plus {s : Bytes} {n : Nat} : IntLit s n → PlusIntLit (b! "+" ++ s) n

end Takenoco.Spec
