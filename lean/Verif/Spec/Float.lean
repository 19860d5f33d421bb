import Mathlib.Data.Rat.Cast.Order
import Verif.Spec.Literals
/-
Specification vocabulary for numbers with point and exponent: what a decimal text denotes, and the float64 next to a rational number.
-/
namespace Takenoco.Spec

/-- The value of decimal digits. -/
def digitsValue (ds : Bytes) : Nat := ds.foldl (fun n d => n * 10 + (d.toNat - 0x30)) 0

/-- Decimal digits, possibly none. -/
def Decimals (ds : Bytes) : Prop := ∀ b ∈ ds, isDec b = true

/-- An optional sign; whether it is a minus. -/
inductive SignText : Bytes → Bool → Prop where
  | none : SignText [] false
  | plus : SignText (b! "+") false
  | minus : SignText (b! "-") true

/-- An optional exponent and its value. -/
inductive ExponentText : Bytes → Int → Prop where
  | none : ExponentText [] 0
  | exp {c : UInt8} {s ds : Bytes} {neg : Bool} : c = 0x65 ∨ c = 0x45 → SignText s neg → Decimals ds → ds ≠ [] →
      ExponentText (c :: s ++ ds) (if neg then -(digitsValue ds : Int) else digitsValue ds)

/-- Digits with an optional point among, before or behind them; the value of the digits, and how many of them are behind the point. -/
inductive MantissaText : Bytes → Nat → Nat → Prop where
  | whole {ds : Bytes} : Decimals ds → ds ≠ [] → MantissaText ds (digitsValue ds) 0
  | point {ip fp : Bytes} : Decimals ip → Decimals fp → ip ++ fp ≠ [] →
      MantissaText (ip ++ b! "." ++ fp) (digitsValue (ip ++ fp)) fp.length

/-- The number with these bits (without the sign bit): below `2 ^ 52` a multiple of the smallest positive number, otherwise a number with
53 binary digits. -/
def floatValue (b : Nat) : ℚ :=
  if b < 2 ^ 52 then b * 2 ^ (-1074 : ℤ) else (2 ^ 52 + b % 2 ^ 52 : ℕ) * 2 ^ (b / 2 ^ 52 - 1075 : ℤ)

/-- The bits of finite numbers are below those of infinity. -/
def infinityBits : Nat := 0x7ff0000000000000

/-- These are the bits of the finite number next to `x`; if there are two, of the one whose last bit is 0. -/
structure NearestFloat (x : ℚ) (b : Nat) : Prop where
  finite : b < infinityBits
  nearest : ∀ b' < infinityBits, |x - floatValue b| ≤ |x - floatValue b'|
  even : ∀ b' < infinityBits, b' ≠ b → |x - floatValue b'| = |x - floatValue b| → b % 2 = 0

/-- From here on numbers are too large: half way between the largest finite number and what would be the next one. -/
def tooLarge : ℚ := 2 ^ 1024 - 2 ^ 970

end Takenoco.Spec

namespace Takenoco.Spec

/-- From `c` the parser consumes `w` and pushes one AST with the float of these bits. -/
def YieldsFloat (p : Sem) (c : Ctx) (w : Bytes) (bits : UInt64) : Prop :=
  ∃ o a, Outcome.of (p c) = .matched o ∧ o.str = c.str ∧ c.str.drop c.pos = w ++ o.str.drop o.pos ∧ o.pos = c.pos + w.length ∧
    o.stack = c.stack ++ [a] ∧ a.ty = .float ∧ a.val = .float bits

/-- The bits of a number with sign. -/
def signedBits (neg : Bool) (b : Nat) : UInt64 := UInt64.ofNat (b + if neg then 2 ^ 63 else 0)

/-- A word in small or capital letters. -/
def InLetters (word w : Bytes) : Prop := List.Forall₂ (fun l b => b = l ∨ b.toNat + 0x20 = l.toNat) word w

end Takenoco.Spec
