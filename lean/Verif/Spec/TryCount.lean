import Verif.Spec.Expressive
/-
How many expressions are tried on the way to the result of a parsing expression; and a grammar for which that number is exponential.
-/
namespace Takenoco.Spec

namespace Pex
/-- `Tried rules p t o k`: on the text `t` the expression `p` has the result `o` (as in `Ford`), and `k` expressions are tried for that, counting
`p` itself and every one as often as it is tried; a repetition counts once, however often its body is tried. -/
inductive Tried (rules : Nat → Pex) : Pex → List Char → Option (List Char) → Nat → Prop where
  | eps {t : List Char} : Tried rules .eps t (some t) 1
  | chr {f : Nat → Bool} {ch : Char} {t : List Char} : f ch.toNat = true → Tried rules (.chr f) (ch :: t) (some t) 1
  | chrNot {f : Nat → Bool} {ch : Char} {t : List Char} : ¬ f ch.toNat = true → Tried rules (.chr f) (ch :: t) none 1
  | chrEnd {f : Nat → Bool} : Tried rules (.chr f) [] none 1
  | seq {a b : Pex} {t u : List Char} {r : Option (List Char)} {k k' : Nat} : Tried rules a t (some u) k → Tried rules b u r k' →
      Tried rules (.seq a b) t r (1 + (k + k'))
  | seqFail {a b : Pex} {t : List Char} {k : Nat} : Tried rules a t none k → Tried rules (.seq a b) t none (1 + k)
  | altLeft {a b : Pex} {t u : List Char} {k : Nat} : Tried rules a t (some u) k → Tried rules (.alt a b) t (some u) (1 + k)
  | altRight {a b : Pex} {t : List Char} {r : Option (List Char)} {k k' : Nat} : Tried rules a t none k → Tried rules b t r k' →
      Tried rules (.alt a b) t r (1 + (k + k'))
  | starEnd {a : Pex} {t : List Char} {k : Nat} : Tried rules a t none k → Tried rules (.star a) t (some t) (1 + k)
  | starMore {a : Pex} {t u : List Char} {r : Option (List Char)} {k k' : Nat} : Tried rules a t (some u) k → Tried rules (.star a) u r (1 + k') →
      Tried rules (.star a) t r (1 + (k + k'))
  | notYes {a : Pex} {t : List Char} {k : Nat} : Tried rules a t none k → Tried rules (.notP a) t (some t) (1 + k)
  | notNo {a : Pex} {t u : List Char} {k : Nat} : Tried rules a t (some u) k → Tried rules (.notP a) t none (1 + k)
  | var {i : Nat} {t : List Char} {r : Option (List Char)} {k : Nat} : Tried rules (rules i) t r k → Tried rules (.var i) t r (1 + k)

/-- One character. -/
def one (ch : Char) : Pex := .chr (· == ch.toNat)

/-- `A ← '(' A ')' / '(' A ']' / 'x'` -/
def twice : Pex := .alt (.seq (one '(') (.seq (.var 0) (one ')'))) (.alt (.seq (one '(') (.seq (.var 0) (one ']'))) (one 'x'))

/-- `A ← '(' A (')' / ']') / 'x'`: the same with what the alternatives share written once. -/
def factored : Pex := .alt (.seq (one '(') (.seq (.var 0) (.alt (one ')') (one ']')))) (one 'x')

/-- `x` in so many pairs `(…]`. -/
def nested : Nat → List Char
  | 0 => ['x']
  | k + 1 => '(' :: (nested k ++ [']'])

end Pex
end Takenoco.Spec
