import Verif.Spec.Numeral
/-
Specification vocabulary for the errors of `ParseInt` and `ParseUint`.
-/
namespace Takenoco.Spec

/-- The text starts with digits that make a number of more than 64 bits; what follows does not matter. -/
def Overflows (base : Nat) (w : Bytes) : Prop := ∃ p r n, w = p ++ r ∧ Numeral base p n ∧ 2 ^ 64 ≤ n

end Takenoco.Spec
