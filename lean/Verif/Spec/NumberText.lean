import Verif.Spec.Literals
/-
The texts that the literal parsers of package extra are meant to accept, as languages, and what it means to take the longest one.
-/
namespace Takenoco.Spec

/-- Only underscores. -/
def Underscores (u : Bytes) : Prop := ∀ b ∈ u, b = 0x5f

/-- Digits of a set and underscores, in any order. -/
def Mixed (D : UInt8 → Bool) (u : Bytes) : Prop := ∀ b ∈ u, D b = true ∨ b = 0x5f

/-- A digit, then digits and underscores. -/
inductive DigitText (D : UInt8 → Bool) : Bytes → Prop where
  | mk {d : UInt8} {u : Bytes} : D d = true → Mixed D u → DigitText D (d :: u)

/-- An optional sign. -/
inductive OptSign : Bytes → Prop where
  | none : OptSign []
  | sign {b : UInt8} : isSign b = true → OptSign [b]

/-- A number without sign and point: `0`, or digits of which the first is not `0`. Underscores may stand behind the first digit. -/
inductive WholeText : Bytes → Prop where
  | zero {u : Bytes} : Underscores u → WholeText (0x30 :: u)
  | digits {d : UInt8} {u : Bytes} : isDec d = true → d ≠ 0x30 → Mixed isDec u → WholeText (d :: u)

/-- `e` or `E`, an optional sign, and a digit with digits and underscores behind it. -/
inductive PowerText : Bytes → Prop where
  | mk {e : UInt8} {s w : Bytes} : e = 0x45 ∨ e = 0x65 → OptSign s → DigitText isDec w → PowerText (e :: s ++ w)

/-- An exponent or nothing. -/
inductive OptPower : Bytes → Prop where
  | none : OptPower []
  | power {w : Bytes} : PowerText w → OptPower w

/-- `+12`, `-0`, `1_000` -/
inductive IntegerText : Bytes → Prop where
  | mk {s w : Bytes} : OptSign s → WholeText w → IntegerText (s ++ w)

/-- A number with a point or an exponent: `1.`, `1.5e3`, `.5`, `1e3`. Behind a point there may be underscores only (`._`). -/
inductive PointText : Bytes → Prop where
  | point {s w f e : Bytes} : OptSign s → WholeText w → Mixed isDec f → OptPower e → PointText (s ++ w ++ 0x2e :: f ++ e)
  | bare {s f e : Bytes} : OptSign s → f ≠ [] → Mixed isDec f → OptPower e → PointText (s ++ 0x2e :: f ++ e)
  | power {s w e : Bytes} : OptSign s → WholeText w → PowerText e → PointText (s ++ w ++ e)

/-- An integer or a number with a point or an exponent. -/
def NumericText (w : Bytes) : Prop := IntegerText w ∨ PointText w

/-- `w` is the longest beginning of `s` that is in the language. -/
def Longest (L : Bytes → Prop) (s w : Bytes) : Prop := L w ∧ w <+: s ∧ ∀ v, L v → v <+: s → v.length ≤ w.length

/-- The parser takes the longest beginning of the rest of the text that is in the language; what it yields is that text without its
underscores. It does not match if no beginning is in the language. -/
def TakesLongest (p : Sem) (L : Bytes → Prop) (cls : String) : Prop :=
  ∀ c, c.status = .matched → c.pos ≤ c.str.length →
    (∀ w, Longest L (c.str.drop c.pos) w → Consumes p c w cls (withoutUnderscores w)) ∧
    ((∀ w, L w → ¬ w <+: c.str.drop c.pos) → Outcome.of (p c) = .unmatched)

end Takenoco.Spec
