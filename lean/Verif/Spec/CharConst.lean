import Verif.Spec.Text
/-
How two parsers for one character are compared.
-/
namespace Takenoco.Spec

/-- The two parsers do the same, up to the class names given to the token and to the context. -/
def SameUpToClass (p q : Sem) (clsP clsQ : String) : Prop := ∀ c : Ctx, c.pos ≤ c.str.length →
  (∃ v n, 0 < n ∧ p c = .ok (advance clsP v n c, none) ∧ q c = .ok (advance clsQ v n c, none)) ∨
  (p c = .ok (refuse clsP c, none) ∧ q c = .ok (refuse clsQ c, none))

/-- One of the two takes the next character, the other one does not. At the end none matches. -/
def Complementary (p q : Sem) (clsP clsQ : String) : Prop := ∀ c : Ctx, c.pos ≤ c.str.length →
  (c.pos = c.str.length → p c = .ok (refuse clsP c, none) ∧ q c = .ok (refuse clsQ c, none)) ∧
  (c.pos < c.str.length → ∃ ch n, NextChar (c.str.drop c.pos) ch n ∧
    ((p c = .ok (advance clsP (utf8 ch) n c, none) ∧ q c = .ok (refuse clsQ c, none)) ∨
     (p c = .ok (refuse clsP c, none) ∧ q c = .ok (advance clsQ (utf8 ch) n c, none))))

end Takenoco.Spec
