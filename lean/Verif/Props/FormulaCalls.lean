import Verif.Lemmas.FormulaCalls
import Verif.Spec.Cost
import Verif.Lemmas.TraceAll
/-
C90: how many parser calls `formula.Parse` and `torpn.Parse` need.
-/
namespace Takenoco
open Spec Trace

/-! ### C90: the number of parser calls of the formula parsers is at most quadratic -/

/-- **C90.** However the grammar of `formula.Parse` is built under tracers, parsing a text of `n` bytes makes at most `184 n² + 645 n + 510` parser calls,
with those that the production rules make: also for texts that are not formulas, and however deep the parentheses are nested. -/
theorem C90_formula (tenv : TEnv) (henv : ∀ name k, (tenv name k).plain = Formula.env name) (tg : TGram) (htg : tg.plain = Formula.program) (N : Nat) (s : Bytes)
    (log : Log) : callCount (tg.run tenv N (newStrCtx s) log).2.events ≤ callCount log.events + (184 * s.length ^ 2 + 645 * s.length + 510) := by
  have hl : ∀ N, LedLeaves s tenv N s.length (28 * (s.length + 1)) (28 * (s.length + 1) + (100 * (s.length + 5) + 2 * (28 * (s.length + 1)))) :=
    fun N => leaves rfl rfl (Nat.le_refl _)
  have hi := led_indirect henv rfl rfl hl (fun _ => arith_formula) (name := Formula.groupedName) rfl
  have hg := led_program rfl (hl (N + 1)) (led_expression rfl rfl (hl (N + 1)) (hi (N + 1)) "Value required" "Error in the expression after the binary operator" arith_formula)
  have := calls_program hg tg htg log
  refine Nat.le_trans this ?_
  rw [show s.length ^ 2 = s.length * s.length by rw [Nat.pow_two]]
  simp only [Nat.mul_add, Nat.add_mul, Nat.mul_assoc]
  omega

/-- C90. The same for `torpn.Parse`. -/
theorem C90_torpn (tenv : TEnv) (henv : ∀ name k, (tenv name k).plain = ToRpn.env name) (tg : TGram) (htg : tg.plain = ToRpn.program) (N : Nat) (s : Bytes)
    (log : Log) : callCount (tg.run tenv N (newStrCtx s) log).2.events ≤ callCount log.events + (184 * s.length ^ 2 + 645 * s.length + 510) := by
  have hl : ∀ N, LedLeaves s tenv N s.length (28 * (s.length + 1)) (28 * (s.length + 1) + (100 * (s.length + 5) + 2 * (28 * (s.length + 1)))) :=
    fun N => leaves rfl rfl (Nat.le_refl _)
  have hi := led_indirect henv rfl rfl hl (fun _ => arith_toRpn) (name := ToRpn.groupedName) rfl
  have hg := led_program rfl (hl (N + 1)) (led_expression rfl rfl (hl (N + 1)) (hi (N + 1)) "Value required" "Error in the expression after the binary operator" arith_toRpn)
  have := calls_program hg tg htg log
  refine Nat.le_trans this ?_
  rw [show s.length ^ 2 = s.length * s.length by rw [Nat.pow_two]]
  simp only [Nat.mul_add, Nat.add_mul, Nat.mul_assoc]
  omega

/-! ### Cases -/

/-- Everything is traced. -/
example (i : Info) : (Formula.program.traced i).plain = Formula.program ∧ ∀ name, ((Formula.env name).traced i).plain = Formula.env name :=
  ⟨plain_traced _ _, fun _ => plain_traced _ _⟩

/-- `1+2*3` is parsed with 198 calls; the bound is 8335. -/
example : callCount ((Formula.program.traced ⟨0, "", 0, ""⟩).run (fun name _ => (Formula.env name).traced ⟨0, "", 0, ""⟩) 60 (newStrCtx (b! "1+2*3")) ⟨0, []⟩).2.events = 198 := by
  decide +kernel

/-- `((1)` is refused after 178 calls. -/
example : callCount ((ToRpn.program.traced ⟨0, "", 0, ""⟩).run (fun name _ => (ToRpn.env name).traced ⟨0, "", 0, ""⟩) 60 (newStrCtx (b! "((1)")) ⟨0, []⟩).2.events = 178 := by
  decide +kernel

/-- `1+1+1*1*1` needs 420 calls. -/
example : callCount ((Formula.program.traced ⟨0, "", 0, ""⟩).run (fun name _ => (Formula.env name).traced ⟨0, "", 0, ""⟩) 60 (newStrCtx (b! "1+1+1*1*1")) ⟨0, []⟩).2.events = 420 := by
  decide +kernel

#print axioms C90_formula
#print axioms C90_torpn

end Takenoco
