import Verif.Spec.Linear
/-
Writing down an arbitrary parsing expression grammar with the combinators of takenoco.
-/
namespace Takenoco.Spec

/-- Parsing expressions whose sets of characters are given by functions on runes. -/
inductive Pex where
  | eps
  | chr (f : Nat → Bool)
  | seq (a b : Pex)
  | alt (a b : Pex)
  | star (a : Pex)
  | notP (a : Pex)
  | var (i : Nat)

namespace Pex
/-- The parsing expression. -/
def peg : Pex → Peg
  | .eps => .eps
  | .chr f => .chr fun ch => f ch.toNat = true
  | .seq a b => .seq a.peg b.peg
  | .alt a b => .alt a.peg b.peg
  | .star a => .star a.peg
  | .notP a => .notP a.peg
  | .var i => .var i

/-- How it is written: `Zero()`, `CharClassFn(f)`, `FlatGroup(a, b)`, `First(a, b)`, `ZeroOrMoreTimes(a)`, `LookAheadN(a)`, `Indirect(f)`. -/
def gram : Pex → Gram
  | .eps => .prim (zeroP [])
  | .chr f => .prim (charClassFn f)
  | .seq a b => .flatGroup [a.gram, b.gram]
  | .alt a b => .first [a.gram, b.gram]
  | .star a => .repeat ⟨0, -1⟩ [a.gram]
  | .notP a => .lookAheadN [a.gram]
  | .var i => .indirect i
end Pex

end Takenoco.Spec
