import Verif.Spec.Linear
/-
What can still become a word.
-/
namespace Takenoco.Spec

/-- The text can be continued to a word of the expression, read as a context-free grammar. -/
def Continuable (rules : Nat → Peg) (e : Peg) (t : List Char) : Prop := ∃ w, Lang rules e (t ++ w)

/-- The expression has no look-ahead. (The nonterminals are looked at separately.) -/
def Peg.NoLook : Peg → Prop
  | .eps | .chr _ | .var _ => True
  | .seq a b | .alt a b => a.NoLook ∧ b.NoLook
  | .star a => a.NoLook
  | .notP _ => False

/-- Each rule is without look-ahead, generates a word, and so do all its parts. -/
structure Productive (rules : Nat → Peg) : Prop where
  noLook : ∀ i, (rules i).NoLook
  useful : ∀ i, (rules i).Useful
  word : ∀ i, ∃ w, Lang rules (rules i) w

end Takenoco.Spec
