import Verif.Spec.Expressive
/-
Which expressions have to be tried, and where, to get the result of a parsing expression; and coming back to the same one at the same place.
-/
namespace Takenoco.Spec

namespace Pex
/-- `Needs rules p t q u`: for the result of `p` on the text `t` the first or the next thing to do is to try `q` on the text `u`, a rest of `t`. -/
inductive Needs (rules : Nat → Pex) : Pex → List Char → Pex → List Char → Prop where
  | seqLeft {a b : Pex} {t : List Char} : Needs rules (.seq a b) t a t
  | seqRight {a b : Pex} {t u : List Char} : Ford (fun i => (rules i).peg) a.peg t (some u) → Needs rules (.seq a b) t b u
  | altLeft {a b : Pex} {t : List Char} : Needs rules (.alt a b) t a t
  | altRight {a b : Pex} {t : List Char} : Ford (fun i => (rules i).peg) a.peg t none → Needs rules (.alt a b) t b t
  | star {a : Pex} {t : List Char} : Needs rules (.star a) t a t
  | again {a : Pex} {t u : List Char} : Ford (fun i => (rules i).peg) a.peg t (some u) → Needs rules (.star a) t (.star a) u
  | notP {a : Pex} {t : List Char} : Needs rules (.notP a) t a t
  | var {i : Nat} {t : List Char} : Needs rules (.var i) t (rules i) t

/-- One or more such steps. -/
inductive Leads (rules : Nat → Pex) : Pex → List Char → Pex → List Char → Prop where
  | one {p q : Pex} {t u : List Char} : Needs rules p t q u → Leads rules p t q u
  | more {p q r : Pex} {t u v : List Char} : Needs rules p t q u → Leads rules q u r v → Leads rules p t r v

/-- On the way from `p` at the text `t` some expression at some place needs itself, at the same place: left recursion, perhaps behind other
expressions that match nothing, or a repetition of something that matches nothing. -/
def Loops (rules : Nat → Pex) (p : Pex) (t : List Char) : Prop :=
  ∃ q u, ((q = p ∧ u = t) ∨ Leads rules p t q u) ∧ Leads rules q u q u

/-- The expression and all expressions written in it. -/
def parts : Pex → List Pex
  | .eps => [.eps]
  | .chr f => [.chr f]
  | .seq a b => .seq a b :: (a.parts ++ b.parts)
  | .alt a b => .alt a b :: (a.parts ++ b.parts)
  | .star a => .star a :: a.parts
  | .notP a => .notP a :: a.parts
  | .var i => [.var i]

/-- How many expressions are written in `p` and in the right sides `l`. -/
def written (p : Pex) (l : List Pex) : Nat := p.parts.length + (l.map fun q => q.parts.length).sum

end Pex
end Takenoco.Spec
