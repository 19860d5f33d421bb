import Verif.Model.Lazy
/-
What happens to the variables in which `Indirect` keeps its parsers.
-/
namespace Takenoco.Spec
open Lazy

/-- Every variable that is set holds a parser built by the function of its `Indirect`. -/
def MadeBy (env : Env) (nameOf : Nat → Nat) (s : Cells) : Prop := ∀ a g, s.cell a = some g → g.rename nameOf = env (nameOf a)

/-- What is set in `s` is set in `t`, to the same parser. -/
def Retains (s t : Cells) : Prop := ∀ a g, s.cell a = some g → t.cell a = some g

/-- From `s` to `t` some variables were set that were not set before, with one call of a function for each of them; the others are as before. -/
def Later (s t : Cells) : Prop :=
  ∃ l : List Nat, l.Nodup ∧ t.calls = s.calls + l.length ∧ (∀ a ∈ l, s.cell a = none ∧ t.cell a ≠ none) ∧ ∀ a, a ∉ l → t.cell a = s.cell a

/-- No variable is set. -/
def unset : Cells := { calls := 0, cell := fun _ => none }

end Takenoco.Spec
