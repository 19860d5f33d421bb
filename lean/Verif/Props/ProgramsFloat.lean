import Verif.Props.Programs
import Verif.Lemmas.FloatRound
/-
C81: the number that JavaScript gets from `parseFormula` is the float64 next to the value.
-/
namespace Takenoco
open Spec Programs

/-- Every number below `2 ^ 53` is a float64. -/
theorem small_float {n : Nat} (h : n < 2 ^ 53) : ∃ b, b < infinityBits ∧ floatValue b = n := by
  by_cases h0 : n = 0
  · subst h0
    exact ⟨0, by decide, by simp [floatValue]⟩
  have hl : n.log2 ≤ 52 := by have := (Nat.log2_lt h0).2 h; omega
  have h1 := Nat.log2_self_le h0
  have h2 : n < 2 ^ (n.log2 + 1) := Nat.lt_log2_self
  obtain ⟨j, hj⟩ : ∃ j, n.log2 + j = 52 := ⟨52 - n.log2, by omega⟩
  have hp := Nat.two_pow_pos j
  have f1 : 2 ^ 52 ≤ n * 2 ^ j := by
    rw [← hj, Nat.pow_add]; exact Nat.mul_le_mul_right _ h1
  have f2 : n * 2 ^ j < 2 ^ 53 := by
    rw [show (53 : Nat) = n.log2 + 1 + j by omega, Nat.pow_add]; exact Nat.mul_lt_mul_of_pos_right h2 hp
  refine ⟨(1074 - j) * 2 ^ 52 + n * 2 ^ j, ?_, ?_⟩
  · have : (1074 - j) * 2 ^ 52 ≤ 1074 * 2 ^ 52 := Nat.mul_le_mul_right _ (by omega)
    unfold infinityBits
    omega
  · rw [floatValue_eq (.inr f1) (by omega)]
    unfold ulp
    rw [show (((1074 - j : ℕ) : ℤ) - 1074 : ℤ) = -(j : ℤ) by omega, zpow_neg, zpow_natCast]
    push_cast
    field_simp

theorem exact_nearest {x : ℚ} {b : Nat} (hb : b < infinityBits) (h : floatValue b = x) : NearestFloat x b := by
  refine ⟨hb, fun b' _ => by rw [h]; simp, fun b' _ hne he => ?_⟩
  rw [h, sub_self, abs_zero, abs_eq_zero, sub_eq_zero, ← h] at he
  exact absurd (floatValue_strictMono.injective he).symm hne

theorem below_tooLarge {n : Nat} (h : n < 2 ^ 64) : (n : ℚ) < tooLarge := by
  have h1 : (n : ℚ) < 2 ^ 64 := by exact_mod_cast h
  have h2 : (2 : ℚ) ^ 64 ≤ 2 ^ 970 := pow_le_pow_right₀ (by norm_num) (by norm_num)
  have h3 : (2 : ℚ) ^ 1024 = 2 ^ 970 * 2 ^ 54 := by rw [← pow_add]
  have h4 : (2 : ℚ) ≤ 2 ^ 54 := by norm_num
  unfold tooLarge
  rw [h3]
  generalize (2 : ℚ) ^ 970 = P at *
  generalize (2 : ℚ) ^ 54 = Q at *
  have h5 : (0 : ℚ) < 2 ^ 64 := by positivity
  nlinarith

/-- `roundNat` finds the float64 next to the number. -/
theorem roundNat_nearest {n : Nat} (h : n < 2 ^ 64) : ∃ b, NearestFloat n b ∧ floatValue b = roundNat n := by
  by_cases hs : n < 2 ^ 53
  · obtain ⟨b, h1, h2⟩ := small_float hs
    exact ⟨b, exact_nearest h1 h2, by rw [roundNat_exact (by omega), h2]⟩
  have hn0 : n ≠ 0 := by omega
  have l1 : 53 ≤ n.log2 := (Nat.le_log2 hn0).2 (by omega)
  have l2 : n.log2 < 64 := (Nat.log2_lt hn0).2 h
  obtain ⟨t, ht⟩ : ∃ t, n.log2 + 1 - 53 = t := ⟨_, rfl⟩
  have hu := Nat.two_pow_pos t
  have q1 : 2 ^ 52 ≤ n / 2 ^ t := by
    rw [Nat.le_div_iff_mul_le hu, ← Nat.pow_add, show 52 + t = n.log2 by omega]
    exact Nat.log2_self_le hn0
  have q2 : n / 2 ^ t < 2 ^ 53 := by
    apply Nat.div_lt_of_lt_mul
    rw [← Nat.pow_add, show t + 53 = n.log2 + 1 by omega]
    exact Nat.lt_log2_self
  have e1 := Nat.div_add_mod n (2 ^ t)
  have e2 := Nat.mod_lt n hu
  have hulp : ulp (1074 + t) = (2 ^ t : ℕ) := by
    unfold ulp
    rw [show (((1074 + t : ℕ) : ℤ) - 1074 : ℤ) = (t : ℤ) by omega, zpow_natCast]
    push_cast; rfl
  have hU : 2 ≤ 2 ^ t ∧ 2 ^ t % 2 = 0 := by
    obtain ⟨t', rfl⟩ : ∃ t', t = t' + 1 := ⟨t - 1, by omega⟩
    have := Nat.two_pow_pos t'
    rw [Nat.pow_succ]; omega
  unfold roundNat
  simp only [ht]
  generalize hq : n / 2 ^ t = q at *
  generalize hr : n % 2 ^ t = r at *
  generalize 2 ^ t = U at *
  have v1 : floatValue ((1074 + t) * 2 ^ 52 + q) = q * U := by rw [floatValue_eq (.inr q1) (by omega), hulp]
  have v2 : floatValue ((1074 + t) * 2 ^ 52 + q + 1) = (q + 1) * U := by
    rw [Nat.add_assoc, floatValue_eq (.inr (by omega)) (by omega), hulp]; push_cast; ring
  have e1' : (n : ℚ) = q * U + r := by rw [← e1]; push_cast; ring
  have e2' : (r : ℚ) < U := by exact_mod_cast e2
  have e3' : (0 : ℚ) ≤ r := by positivity
  have c := closest_of (x := n) (B := (1074 + t) * 2 ^ 52 + q) (b := if 2 * r < U ∨ (2 * r = U ∧ q % 2 = 0) then (1074 + t) * 2 ^ 52 + q else (1074 + t) * 2 ^ 52 + q + 1)
    (by rw [v1]; linarith) (by rw [v2]; linarith) (by
      rw [v1, v2, e1']
      by_cases a : 2 * r < U
      · rw [if_pos (.inl a)]
        have : (2 : ℚ) * r < U := by exact_mod_cast a
        exact .inl ⟨rfl, by linarith⟩
      · by_cases b : 2 * r = U
        · have : (2 : ℚ) * r = U := by exact_mod_cast b
          refine .inr (.inr ⟨by split <;> simp, ?_, by linarith⟩)
          split <;> omega
        · have : (U : ℚ) < 2 * r := by exact_mod_cast (show U < 2 * r by omega)
          rw [if_neg (by omega)]
          exact .inr (.inl ⟨rfl, by linarith⟩))
  refine ⟨_, c.nearestFloat (below_tooLarge h), ?_⟩
  split
  · rw [v1]; push_cast; rfl
  · rw [v2]; push_cast; rfl

/-- **C81**, `parseFormula`: JavaScript gets the float64 next to the value; of two that are equally near, the one whose last bit is 0. -/
theorem C81_formula_nearest {s : Bytes} {e : Expr} {v : Int64} (h : Spelled s e) (hv : e.value = some v) :
    ∃ N b, ∃ y : Int, NearestFloat v.toInt.natAbs b ∧ (y : ℚ) = (if v.toInt < 0 then -floatValue b else floatValue b) ∧
      ∀ n, N ≤ n → parseFormula n [.str s] = .ok y := by
  obtain ⟨N, hN⟩ := (C64_value s v).2 ⟨e, h, hv⟩
  have hlt : v.toInt.natAbs < 2 ^ 64 := by
    have h1 := Int64.toInt_lt v
    have h2 := Int64.le_toInt v
    omega
  obtain ⟨b, h1, h2⟩ := roundNat_nearest hlt
  refine ⟨N, b, toFloat v, h1, ?_, fun n hn => ?_⟩
  · rw [h2]; unfold toFloat; split <;> simp
  · unfold parseFormula
    rw [show sourceOf [.str s] = s from rfl, formula_stable hN (by simp) hn]
    rfl

/-- `9007199254740993` is half way between two float64 numbers: JavaScript gets the even one. -/
example : toFloat 9007199254740993 = 9007199254740992 ∧ toFloat (-9007199254740995) = -9007199254740996 := by decide

#print axioms C81_formula_nearest

end Takenoco
