import Verif.Spec.Language
import Verif.Spec.Cost
/-
How much work a parsing expression is: the number of expressions that are tried on the way to its result. And the grammars for which
this number does not grow faster than the text.
-/
namespace Takenoco.Spec

/-- `Tries rules e t o k p`: on the text `t` the expression `e` has the result `o` (as in `Ford`), `k` expressions are tried for that,
and the `p` characters at the front of `t` have been consumed by one of them, even if it was given up later. -/
inductive Tries (rules : Nat → Peg) : Peg → List Char → Option (List Char) → Nat → Nat → Prop where
  | eps {t : List Char} : Tries rules .eps t (some t) 1 0
  | chr {S : Char → Prop} {ch : Char} {t : List Char} : S ch → Tries rules (.chr S) (ch :: t) (some t) 1 1
  | chrNot {S : Char → Prop} {ch : Char} {t : List Char} : ¬ S ch → Tries rules (.chr S) (ch :: t) none 1 0
  | chrEnd {S : Char → Prop} : Tries rules (.chr S) [] none 1 0
  | seq {a b : Peg} {t u : List Char} {r : Option (List Char)} {k k' p p' : Nat} : Tries rules a t (some u) k p → Tries rules b u r k' p' →
      Tries rules (.seq a b) t r (k + k' + 1) (max p (t.length - u.length + p'))
  | seqFail {a b : Peg} {t : List Char} {k p : Nat} : Tries rules a t none k p → Tries rules (.seq a b) t none (k + 1) p
  | altLeft {a b : Peg} {t u : List Char} {k p : Nat} : Tries rules a t (some u) k p → Tries rules (.alt a b) t (some u) (k + 1) p
  | altRight {a b : Peg} {t : List Char} {r : Option (List Char)} {k k' p p' : Nat} : Tries rules a t none k p → Tries rules b t r k' p' →
      Tries rules (.alt a b) t r (k + k' + 1) (max p p')
  | starEnd {a : Peg} {t : List Char} {k p : Nat} : Tries rules a t none k p → Tries rules (.star a) t (some t) (k + 1) p
  | starMore {a : Peg} {t u : List Char} {r : Option (List Char)} {k k' p p' : Nat} : Tries rules a t (some u) k p → Tries rules (.star a) u r k' p' →
      Tries rules (.star a) t r (k + k' + 1) (max p (t.length - u.length + p'))
  | notYes {a : Peg} {t : List Char} {k p : Nat} : Tries rules a t none k p → Tries rules (.notP a) t (some t) (k + 1) p
  | notNo {a : Peg} {t u : List Char} {k p : Nat} : Tries rules a t (some u) k p → Tries rules (.notP a) t none (k + 1) p
  | var {i : Nat} {t : List Char} {r : Option (List Char)} {k p : Nat} : Tries rules (rules i) t r k p → Tries rules (.var i) t r (k + 1) p

/-- The number of nodes of an expression. -/
def Peg.size : Peg → Nat
  | .eps | .chr _ | .var _ => 1
  | .seq a b | .alt a b => a.size + b.size + 1
  | .star a | .notP a => a.size + 1

/-- The expression has no part that can match nothing: no empty set of characters. (The nonterminals are looked at separately.) -/
def Peg.Useful : Peg → Prop
  | .eps | .var _ => True
  | .chr S => ∃ ch, S ch
  | .seq a b | .alt a b => a.Useful ∧ b.Useful
  | .star a | .notP a => a.Useful

mutual
/-- How deep combinators are nested in a grammar, not looking behind `Indirect`. -/
def height : Gram → Nat
  | .prim _ | .indirect _ | .match _ _ => 1
  | .flatGroup gs | .group gs | .first gs | .lookAhead gs | .lookAheadN gs | .lookBehind _ _ gs | .lookBehindN _ _ gs | .repeat _ gs => heights gs + 1
  | .trans g _ => height g + 1
  | .base _ _ _ gs _ => heights gs + 1

/-- The same for the highest of several. -/
def heights : List Gram → Nat
  | [] => 0
  | g :: gs => max (height g) (heights gs)
end

/-- A finite grammar without useless parts and without left recursion: there are finitely many different rules, each generates a word and so
do all its parts, and no nonterminal comes back to itself before something is consumed. -/
structure Reduced (env : Env) (rules : Nat → Peg) : Prop where
  finite : ∃ l : List (Gram × Peg), ∀ i, (env i, rules i) ∈ l
  useful : ∀ i, (rules i).Useful
  word : ∀ i, ∃ w, Lang rules (rules i) w
  noLeft : NoLeftRecursion rules

end Takenoco.Spec
