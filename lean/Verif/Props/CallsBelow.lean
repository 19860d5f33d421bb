import Verif.Lemmas.SumText
import Verif.Props.FormulaTotal
import Verif.Spec.Cost
/-
C103: sums need a quadratic number of parser calls.
-/
namespace Takenoco
open Spec Trace

theorem onesText_length (k : Nat) : (onesText k).length = 2 * k + 1 := by
  simp [onesText, plusOnes_length]

theorem formula_ends (s : Bytes) : ∃ N, ∀ n, N ≤ n → run Formula.env n Formula.program (newStrCtx s) ≠ .timeout := by
  obtain ⟨N, h⟩ := C50_formula_total s
  refine ⟨N, fun n hn ht => ?_⟩
  have hp := formula_parse_of ht
  rcases h with ⟨r, h⟩ | h <;> · rw [h n hn] at hp; cases hp

theorem torpn_ends (s : Bytes) : ∃ N, ∀ n, N ≤ n → run ToRpn.env n ToRpn.program (newStrCtx s) ≠ .timeout := by
  obtain ⟨N, r, h⟩ := C55_torpn_total s
  refine ⟨N, fun n hn ht => ?_⟩
  have hp := torpn_parse_of ht
  rw [h n hn] at hp; cases hp

/-! ### C103: the number of parser calls of the formula parsers is quadratic for sums -/

/-- **C103.** `formula.Parse`, with every parser under a tracer, makes at least `k² + 3k` parser calls for the sum of `k + 1` ones, which has `2k + 1` bytes. -/
theorem C103_formula (i : Info) (k N : Nat) (log : Log) (hN : run Formula.env N Formula.program (newStrCtx (onesText k)) ≠ .timeout) :
    callCount log.events + (k ^ 2 + 3 * k) ≤
      callCount ((Formula.program.traced i).run (fun name _ => (Formula.env name).traced i) N (newStrCtx (onesText k)) log).2.events :=
  ones_adds i formula_rules (gc := Formula.checkG) (gb := fun t => binaryRuleOf (opsOf t) (formulaBinary t)) (ts := [.fn Formula.unaryTr]) rfl
    (fun tag => formula_evaluates tag) (fun _ _ => ⟨_, rfl⟩) k N hN log

/-- C103. The same for `torpn.Parse`. -/
theorem C103_torpn (i : Info) (k N : Nat) (log : Log) (hN : run ToRpn.env N ToRpn.program (newStrCtx (onesText k)) ≠ .timeout) :
    callCount log.events + (k ^ 2 + 3 * k) ≤
      callCount ((ToRpn.program.traced i).run (fun name _ => (ToRpn.env name).traced i) N (newStrCtx (onesText k)) log).2.events :=
  ones_adds i rpn_rules (gc := Formula.checkG) (gb := fun t => binaryRuleOf (opsOf t) (ToRpn.binaryTr)) (ts := [.fn ToRpn.unaryTr]) rfl
    (fun tag => rpn_evaluates tag .index) (fun _ _ => ⟨_, rfl⟩) k N hN log

theorem linear_lt (a b : Nat) : a * (2 * (2 * a + b + 1) + 1) + b < (2 * a + b + 1) ^ 2 + 3 * (2 * a + b + 1) := by
  have h : a * (2 * (2 * a + b + 1)) ≤ (2 * a + b + 1) * (2 * a + b + 1) := by
    rw [← Nat.mul_assoc]
    exact Nat.mul_le_mul_right _ (by omega)
  rw [Nat.pow_two, Nat.mul_add, Nat.mul_one]
  generalize a * (2 * (2 * a + b + 1)) = x at h ⊢
  generalize (2 * a + b + 1) * (2 * a + b + 1) = y at h ⊢
  omega

/-- C103. No linear function of the length of the text bounds the number of parser calls of `formula.Parse`. -/
theorem C103_formula_not_linear (i : Info) (a b : Nat) :
    ∃ s N, ∀ n, N ≤ n → ∀ log, callCount log.events + (a * s.length + b) <
      callCount ((Formula.program.traced i).run (fun name _ => (Formula.env name).traced i) n (newStrCtx s) log).2.events := by
  obtain ⟨N, h⟩ := formula_ends (onesText (2 * a + b + 1))
  refine ⟨onesText (2 * a + b + 1), N, fun n hn log => ?_⟩
  have h1 := C103_formula i (2 * a + b + 1) n log (h n hn)
  have h2 := linear_lt a b
  rw [onesText_length]
  exact Nat.lt_of_lt_of_le (Nat.add_lt_add_left h2 _) h1

/-- C103. Nor that of `torpn.Parse`. -/
theorem C103_torpn_not_linear (i : Info) (a b : Nat) :
    ∃ s N, ∀ n, N ≤ n → ∀ log, callCount log.events + (a * s.length + b) <
      callCount ((ToRpn.program.traced i).run (fun name _ => (ToRpn.env name).traced i) n (newStrCtx s) log).2.events := by
  obtain ⟨N, h⟩ := torpn_ends (onesText (2 * a + b + 1))
  refine ⟨onesText (2 * a + b + 1), N, fun n hn log => ?_⟩
  have h1 := C103_torpn i (2 * a + b + 1) n log (h n hn)
  have h2 := linear_lt a b
  rw [onesText_length]
  exact Nat.lt_of_lt_of_le (Nat.add_lt_add_left h2 _) h1

/-- C103. The bound of C90 is attained up to a constant factor: for arbitrarily long texts of `n` bytes, at least `n² / 4` calls are made. -/
theorem C103_formula_square (i : Info) (m : Nat) :
    ∃ s : Bytes, m ≤ s.length ∧ ∃ N, ∀ n, N ≤ n → ∀ log, 4 * callCount log.events + s.length ^ 2 ≤
      4 * callCount ((Formula.program.traced i).run (fun name _ => (Formula.env name).traced i) n (newStrCtx s) log).2.events := by
  obtain ⟨N, h⟩ := formula_ends (onesText (m + 1))
  refine ⟨onesText (m + 1), by rw [onesText_length]; omega, N, fun n hn log => ?_⟩
  have h1 := C103_formula i (m + 1) n log (h n hn)
  rw [onesText_length]
  rw [Nat.pow_two] at h1 ⊢
  simp only [Nat.mul_add, Nat.add_mul, Nat.mul_one, Nat.one_mul] at h1 ⊢
  rw [show 2 * m * (2 * m) = 4 * (m * m) by rw [Nat.mul_mul_mul_comm]]
  generalize m * m = y at h1 ⊢
  omega

/-- C103. The same for `torpn.Parse`. -/
theorem C103_torpn_square (i : Info) (m : Nat) :
    ∃ s : Bytes, m ≤ s.length ∧ ∃ N, ∀ n, N ≤ n → ∀ log, 4 * callCount log.events + s.length ^ 2 ≤
      4 * callCount ((ToRpn.program.traced i).run (fun name _ => (ToRpn.env name).traced i) n (newStrCtx s) log).2.events := by
  obtain ⟨N, h⟩ := torpn_ends (onesText (m + 1))
  refine ⟨onesText (m + 1), by rw [onesText_length]; omega, N, fun n hn log => ?_⟩
  have h1 := C103_torpn i (m + 1) n log (h n hn)
  rw [onesText_length]
  rw [Nat.pow_two] at h1 ⊢
  simp only [Nat.mul_add, Nat.add_mul, Nat.mul_one, Nat.one_mul] at h1 ⊢
  rw [show 2 * m * (2 * m) = 4 * (m * m) by rw [Nat.mul_mul_mul_comm]]
  generalize m * m = y at h1 ⊢
  omega

/-! ### Cases -/

example : onesText 3 = b! "1+1+1+1" := rfl

/-- The hypothesis holds with fuel 60, and the value is that of the sum. -/
example : Formula.parse 60 (onesText 3) = .ok (.value 4) := by cbv

/-- 338 calls for `1+1+1+1`; the theorem says: at least 18. -/
example : callCount ((Formula.program.traced ⟨0, "", 0, ""⟩).run (fun name _ => (Formula.env name).traced ⟨0, "", 0, ""⟩) 60 (newStrCtx (onesText 3)) ⟨0, []⟩).2.events = 338 := by
  decide +kernel

#print axioms C103_formula
#print axioms C103_torpn
#print axioms C103_formula_not_linear
#print axioms C103_torpn_not_linear
#print axioms C103_formula_square
#print axioms C103_torpn_square

end Takenoco
