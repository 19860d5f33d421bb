import Verif.Model.Types
/-
The texts `1`, `1+1`, `1+1+1`, …
-/
namespace Takenoco.Spec

/-- `+1` so many times. -/
def plusOnes : Nat → Bytes
  | 0 => []
  | k + 1 => 0x2b :: 0x31 :: plusOnes k

/-- The sum of `k + 1` ones. -/
def onesText (k : Nat) : Bytes := 0x31 :: plusOnes k

end Takenoco.Spec
