import Mathlib.Tactic.Linarith
import Mathlib.Tactic.FieldSimp
import Mathlib.Tactic.Positivity
import Mathlib.Tactic.Ring
import Mathlib.Tactic.NormNum
import Verif.Model.ParseFloat
import Verif.Spec.Float
/-
Rounding to the nearest float64: the function of the model finds what the specification asks for.
-/
namespace Takenoco
open Spec

/-- One unit in the last place. -/
def ulp (k : Nat) : ℚ := 2 ^ (k - 1074 : ℤ)

theorem ulp_pos (k : Nat) : 0 < ulp k := by unfold ulp; exact zpow_pos (by norm_num) _

theorem floatValue_eq {k f : Nat} (h : k = 0 ∨ 2 ^ 52 ≤ f) (hf : f ≤ 2 ^ 53) : floatValue (k * 2 ^ 52 + f) = f * ulp k := by
  unfold floatValue ulp
  by_cases h1 : k * 2 ^ 52 + f < 2 ^ 52
  · rw [if_pos h1]
    have hk : k = 0 := by omega
    subst hk
    simp
  · rw [if_neg h1]
    by_cases h2 : f = 2 ^ 53
    · subst h2
      have e1 : (k * 2 ^ 52 + 2 ^ 53) % 2 ^ 52 = 0 := by omega
      have e2 : (k * 2 ^ 52 + 2 ^ 53) / 2 ^ 52 = k + 2 := by omega
      rw [e1]
      have e3 : (((k * 2 ^ 52 + 2 ^ 53 : ℕ) : ℤ) / 2 ^ 52 - 1075 : ℤ) = (k - 1074 : ℤ) + 1 := by omega
      rw [e3, zpow_add₀ (by norm_num)]
      push_cast
      ring
    · have e1 : 2 ^ 52 + (k * 2 ^ 52 + f) % 2 ^ 52 = f := by omega
      have e3 : (((k * 2 ^ 52 + f : ℕ) : ℤ) / 2 ^ 52 - 1075 : ℤ) = (k - 1074 : ℤ) := by omega
      rw [e1, e3]

theorem float_split (b : Nat) : ∃ k f, b = k * 2 ^ 52 + f ∧ (k = 0 ∨ 2 ^ 52 ≤ f) ∧ f < 2 ^ 53 :=
  ⟨b / 2 ^ 52 - 1, b - (b / 2 ^ 52 - 1) * 2 ^ 52, by omega, by omega, by omega⟩

theorem floatValue_strictMono : StrictMono floatValue := strictMono_nat_of_lt_succ fun b => by
  obtain ⟨k, f, rfl, h, hf⟩ := float_split b
  rw [floatValue_eq h (by omega), Nat.add_assoc, floatValue_eq (by omega) (by omega)]
  have := ulp_pos k
  push_cast
  linarith

/-- Nearest among all the numbers that there were without a largest exponent. -/
structure Closest (x : ℚ) (b : Nat) : Prop where
  nearest : ∀ b', |x - floatValue b| ≤ |x - floatValue b'|
  even : ∀ b', b' ≠ b → |x - floatValue b'| = |x - floatValue b| → b % 2 = 0

theorem far_below {x : ℚ} {B b' : Nat} (h : floatValue B ≤ x) (hb : b' < B) : |x - floatValue B| < |x - floatValue b'| := by
  have := floatValue_strictMono hb
  rw [abs_of_nonneg (by linarith), abs_of_nonneg (by linarith)]
  linarith

theorem far_above {x : ℚ} {B b' : Nat} (h : x ≤ floatValue B) (hb : B < b') : |x - floatValue B| < |x - floatValue b'| := by
  have := floatValue_strictMono hb
  rw [abs_of_nonpos (by linarith), abs_of_nonpos (by linarith)]
  linarith

theorem closest_of {x : ℚ} {B b : Nat} (h1 : floatValue B ≤ x) (h2 : x < floatValue (B + 1))
    (h : (b = B ∧ x - floatValue B < floatValue (B + 1) - x) ∨ (b = B + 1 ∧ floatValue (B + 1) - x < x - floatValue B) ∨
      ((b = B ∨ b = B + 1) ∧ b % 2 = 0 ∧ x - floatValue B = floatValue (B + 1) - x)) : Closest x b := by
  have a1 : |x - floatValue B| = x - floatValue B := abs_of_nonneg (by linarith)
  have a2 : |x - floatValue (B + 1)| = floatValue (B + 1) - x := by rw [abs_of_nonpos (by linarith)]; ring
  have key : ∀ b', |x - floatValue b| ≤ |x - floatValue b'| ∧ (b' ≠ b → |x - floatValue b'| = |x - floatValue b| → b % 2 = 0) := by
    intro b'
    rcases Nat.lt_trichotomy b' B with hb | hb | hb
    · have f1 := far_below h1 hb
      rcases h with ⟨rfl, h⟩ | ⟨rfl, h⟩ | ⟨rfl | rfl, he, h⟩
      · exact ⟨le_of_lt f1, fun _ h' => by rw [h'] at f1; exact absurd f1 (lt_irrefl _)⟩
      · exact ⟨by linarith, fun _ h' => by exfalso; linarith⟩
      · exact ⟨by linarith, fun _ _ => he⟩
      · exact ⟨by linarith, fun _ _ => he⟩
    · subst hb
      rcases h with ⟨rfl, h⟩ | ⟨rfl, h⟩ | ⟨rfl | rfl, he, h⟩
      · exact ⟨le_refl _, fun h => absurd rfl h⟩
      · exact ⟨by linarith, fun _ h' => by exfalso; linarith⟩
      · exact ⟨le_refl _, fun h => absurd rfl h⟩
      · exact ⟨by linarith, fun _ _ => he⟩
    · rcases Nat.lt_or_eq_of_le (Nat.succ_le_of_lt hb) with hb | hb
      · have f1 := far_above (le_of_lt h2) hb
        rcases h with ⟨rfl, h⟩ | ⟨rfl, h⟩ | ⟨rfl | rfl, he, h⟩
        · exact ⟨by linarith, fun _ h' => by exfalso; linarith⟩
        · exact ⟨le_of_lt f1, fun _ h' => by rw [h'] at f1; exact absurd f1 (lt_irrefl _)⟩
        · exact ⟨by linarith, fun _ _ => he⟩
        · exact ⟨by linarith, fun _ _ => he⟩
      · subst hb
        rcases h with ⟨rfl, h⟩ | ⟨rfl, h⟩ | ⟨rfl | rfl, he, h⟩
        · exact ⟨by simp only [Nat.succ_eq_add_one]; linarith, fun _ h' => by simp only [Nat.succ_eq_add_one] at h'; exfalso; linarith⟩
        · exact ⟨le_refl _, fun h => absurd rfl h⟩
        · exact ⟨by simp only [Nat.succ_eq_add_one]; linarith, fun _ _ => he⟩
        · exact ⟨le_refl _, fun h => absurd rfl h⟩
  exact ⟨fun b' => (key b').1, fun b' => (key b').2⟩

theorem scale_eq (n d k a : Nat) (hd : 0 < d) : (n : ℚ) / d = ((n * 2 ^ a : ℕ) : ℚ) / (d * 2 ^ k : ℕ) * 2 ^ (k - a : ℤ) := by
  rw [zpow_sub₀ (by norm_num), zpow_natCast, zpow_natCast]
  have h1 : (d : ℚ) ≠ 0 := by positivity
  have h2 : (2 : ℚ) ^ k ≠ 0 := by positivity
  have h3 : (2 : ℚ) ^ a ≠ 0 := by positivity
  push_cast
  field_simp

theorem roundFloat_closest (n d : Nat) (hd : 0 < d) : Closest ((n : ℚ) / d) (roundFloat n d) := by
  have hscale := fun k => scale_eq n d k 1074 hd
  unfold roundFloat divHalfEven
  simp only
  generalize hq : n * 2 ^ 1074 / d = q
  generalize hk : q.log2 - 52 = k
  have hf0 : n * 2 ^ 1074 / (d * 2 ^ k) = q / 2 ^ k := by rw [← Nat.div_div_eq_div_mul, hq]
  have hD : 0 < d * 2 ^ k := Nat.mul_pos hd (Nat.two_pow_pos k)
  generalize hf : q / 2 ^ k = f at hf0
  have hlog : q < 2 ^ (q.log2 + 1) := Nat.lt_log2_self
  have hf53 : f < 2 ^ 53 := by
    rw [← hf]
    apply Nat.div_lt_of_lt_mul
    rw [← Nat.pow_add]
    exact Nat.lt_of_lt_of_le hlog (Nat.pow_le_pow_right (by omega) (by omega))
  have hk0 : k = 0 ∨ 2 ^ 52 ≤ f := by
    by_cases h : k = 0
    · exact .inl h
    · right
      rw [← hf, Nat.le_div_iff_mul_le (Nat.two_pow_pos k), ← Nat.pow_add]
      refine Nat.le_trans (Nat.pow_le_pow_right (by omega) (by omega)) (Nat.log2_self_le (n := q) ?_)
      rintro rfl
      simp at hk
      omega
  generalize hN : n * 2 ^ 1074 = N at *
  generalize hDD : d * 2 ^ k = D at *
  have hx : (n : ℚ) / d = (N : ℚ) / D * ulp k := by
    have := hscale k
    rw [hDD] at this
    exact this
  clear hscale hN hq
  have hND : (N : ℚ) / D = f + (N % D : ℕ) / D := by
    have h1 : (D : ℚ) ≠ 0 := by positivity
    have h2 : (N : ℚ) = D * f + (N % D : ℕ) := by
      rw [← hf0]
      exact_mod_cast (Nat.div_add_mod N D).symm
    rw [h2]
    field_simp
  have hv1 : floatValue (k * 2 ^ 52 + f) = f * ulp k := floatValue_eq hk0 (by omega)
  have hv2 : floatValue (k * 2 ^ 52 + f + 1) = (f + 1) * ulp k := by
    rw [Nat.add_assoc, floatValue_eq (by omega) (by omega)]
    push_cast
    ring
  have hu := ulp_pos k
  have hDq : (0 : ℚ) < D := by exact_mod_cast hD
  have hr : N % D < D := Nat.mod_lt _ hD
  generalize N % D = r at *
  have hx' : (n : ℚ) / d - f * ulp k = r / D * ulp k := by rw [hx, hND]; ring
  have hr1 : (r : ℚ) / D < 1 := by rw [div_lt_one hDq]; exact_mod_cast hr
  have hr0 : 0 ≤ (r : ℚ) / D := by positivity
  have cmp : ∀ {a b : ℚ}, a < b → a * ulp k < b * ulp k := fun h => mul_lt_mul_of_pos_right h hu
  have cmp' : ∀ {a b : ℚ}, a ≤ b → a * ulp k ≤ b * ulp k := fun h => mul_le_mul_of_nonneg_right h (le_of_lt hu)
  have c1 := cmp' hr0
  have c2 := cmp hr1
  refine closest_of (B := k * 2 ^ 52 + f) (by rw [hv1]; linarith) (by rw [hv2]; linarith) ?_
  rw [hv1, hv2, hf0]
  by_cases ha : 2 * r < D
  · rw [if_pos ha]
    left
    refine ⟨rfl, ?_⟩
    have : (r : ℚ) / D < 1 / 2 := by
      rw [div_lt_iff₀ hDq]
      have : (2 * r : ℚ) < D := by exact_mod_cast ha
      linarith
    have := cmp this
    linarith
  · rw [if_neg ha]
    by_cases hb : D < 2 * r
    · rw [if_pos hb]
      right; left
      refine ⟨(Nat.add_assoc _ _ _).symm, ?_⟩
      have : 1 / 2 < (r : ℚ) / D := by
        rw [lt_div_iff₀ hDq]
        have : (D : ℚ) < 2 * r := by exact_mod_cast hb
        linarith
      have := cmp this
      linarith
    · rw [if_neg hb]
      right; right
      have hh : (r : ℚ) / D = 1 / 2 := by
        rw [div_eq_iff (by positivity)]
        have : (2 * r : ℚ) = D := by exact_mod_cast (by omega : 2 * r = D)
        linarith
      have hhu : (r : ℚ) / D * ulp k = 1 / 2 * ulp k := by rw [hh]
      refine ⟨?_, ?_, by linarith⟩
      · split
        · exact .inl rfl
        · exact .inr (Nat.add_assoc _ _ _).symm
      · split <;> omega

theorem pow_1024 : (2 : ℚ) ^ 1024 = 2 ^ 53 * 2 ^ 971 := by rw [← pow_add]

theorem value_infinity : floatValue infinityBits = 2 ^ 1024 := by
  have : infinityBits = 2045 * 2 ^ 52 + 2 ^ 53 := by decide
  rw [this, floatValue_eq (.inr (by decide)) (by decide)]
  unfold ulp
  have : ((2045 : ℕ) - 1074 : ℤ) = (971 : ℕ) := by norm_num
  rw [this, zpow_natCast, pow_1024]
  generalize (2 : ℚ) ^ 971 = u
  push_cast
  ring

theorem value_largest : floatValue (infinityBits - 1) = 2 ^ 1024 - 2 ^ 971 := by
  have : infinityBits - 1 = 2045 * 2 ^ 52 + (2 ^ 53 - 1) := by decide
  rw [this, floatValue_eq (.inr (by decide)) (by decide)]
  unfold ulp
  have : ((2045 : ℕ) - 1074 : ℤ) = (971 : ℕ) := by norm_num
  rw [this, zpow_natCast, pow_1024]
  generalize (2 : ℚ) ^ 971 = u
  push_cast
  ring

theorem infinityBits_pos : 0 < infinityBits := by decide

set_option exponentiation.threshold 2000 in
theorem closest_finite {x : ℚ} {b : Nat} (h : Closest x b) : b < infinityBits ↔ x < tooLarge := by
  have v1 := value_infinity
  have v2 := value_largest
  have p : (2 : ℚ) ^ 971 = 2 * 2 ^ 970 := by rw [pow_succ]; ring
  have pp : (0 : ℚ) < 2 ^ 970 := by positivity
  unfold tooLarge
  generalize (2 : ℚ) ^ 1024 = big at *
  generalize (2 : ℚ) ^ 970 = u at *
  rw [p] at v2
  clear p
  constructor
  · intro hb
    by_contra hx
    have hx : big - u ≤ x := by linarith
    have hle : floatValue b ≤ floatValue (infinityBits - 1) := floatValue_strictMono.monotone (by omega)
    have := h.nearest infinityBits
    have e1 : |x - floatValue b| = x - floatValue b := abs_of_nonneg (by linarith)
    by_cases hxb : big ≤ x
    · have := far_below (x := x) (B := infinityBits) (b' := b) (by linarith) hb
      linarith
    · have e2 : |x - floatValue infinityBits| = big - x := by rw [abs_of_nonpos (by linarith)]; linarith
      have hb' : b = infinityBits - 1 := by
        by_contra hne
        have : floatValue b < floatValue (infinityBits - 1) := floatValue_strictMono (by omega)
        linarith
      have := h.even infinityBits (by omega) (by linarith [hb' ▸ v2])
      rw [hb'] at this
      exact absurd this (by decide)
  · intro hx
    by_contra hb
    have hle : floatValue infinityBits ≤ floatValue b := floatValue_strictMono.monotone (by omega)
    have := h.nearest (infinityBits - 1)
    have e1 : |x - floatValue b| = floatValue b - x := by rw [abs_of_nonpos (by linarith)]; ring
    by_cases hl : floatValue (infinityBits - 1) ≤ x
    · rw [e1, abs_of_nonneg (by linarith)] at this
      linarith
    · have := far_above (x := x) (B := infinityBits - 1) (b' := b) (by linarith) (by have := infinityBits_pos; omega)
      linarith

theorem Closest.nearestFloat {x : ℚ} {b : Nat} (h : Closest x b) (hx : x < tooLarge) : NearestFloat x b :=
  ⟨(closest_finite h).2 hx, fun b' _ => h.nearest b', fun b' _ => h.even b'⟩

/-- There is only one such number. -/
theorem Spec.NearestFloat.unique {x : ℚ} {b b' : Nat} (h : NearestFloat x b) (h' : NearestFloat x b') : b = b' := by
  by_contra hne
  wlog hlt : b < b' generalizing b b' with H
  · exact H h' h (Ne.symm hne) (by omega)
  have e : |x - floatValue b'| = |x - floatValue b| := le_antisymm (h'.nearest _ h.finite) (h.nearest _ h'.finite)
  have p1 := h.even b' h'.finite (Ne.symm hne) e
  have p2 := h'.even b h.finite hne e.symm
  have m1 := floatValue_strictMono (show b < b + 1 by omega)
  have m2 := floatValue_strictMono (show b + 1 < b' by omega)
  have hb := h.nearest (b + 1) (by have := h'.finite; omega)
  rcases abs_cases (x - floatValue b) with ⟨a1, a2⟩ | ⟨a1, a2⟩ <;> rcases abs_cases (x - floatValue b') with ⟨c1, c2⟩ | ⟨c1, c2⟩ <;>
    rcases abs_cases (x - floatValue (b + 1)) with ⟨d1, d2⟩ | ⟨d1, d2⟩ <;> linarith

end Takenoco
