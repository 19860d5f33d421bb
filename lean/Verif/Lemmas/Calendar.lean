import Verif.Spec.Calendar
import Verif.Model.Time
/-
Counting days: the closed formula, the iteration of `Date.next`, and Go's cycles of years agree.
-/
namespace Takenoco
open Spec

/-- Days before a month in a year that is not a leap year. -/
def monthStart : Nat → Nat
  | 1 => 0 | 2 => 31 | 3 => 59 | 4 => 90 | 5 => 120 | 6 => 151 | 7 => 181 | 8 => 212 | 9 => 243 | 10 => 273 | 11 => 304 | _ => 334

/-- Closed formula for the number of days since the first day of the year 0. -/
def dayCount (d : Date) : Nat :=
  365 * d.year + (d.year + 3) / 4 + (d.year + 399) / 400 - (d.year + 99) / 100 + monthStart d.month + (if leap d.year && decide (3 ≤ d.month) then 1 else 0) + (d.day - 1)

theorem leap_iff (y : Nat) : leap y = true ↔ y % 4 = 0 ∧ (y % 100 ≠ 0 ∨ y % 400 = 0) := by
  simp only [leap, Bool.and_eq_true, Bool.or_eq_true, decide_eq_true_eq, Bool.not_eq_true', decide_eq_false_iff_not]
  omega

theorem month_cases {m : Nat} (h1 : 1 ≤ m) (h2 : m ≤ 12) :
    m = 1 ∨ m = 2 ∨ m = 3 ∨ m = 4 ∨ m = 5 ∨ m = 6 ∨ m = 7 ∨ m = 8 ∨ m = 9 ∨ m = 10 ∨ m = 11 ∨ m = 12 := by omega

theorem monthLength_pos {y m : Nat} (h1 : 1 ≤ m) (h2 : m ≤ 12) : 1 ≤ monthLength y m := by
  rcases month_cases h1 h2 with rfl | rfl | rfl | rfl | rfl | rfl | rfl | rfl | rfl | rfl | rfl | rfl <;> simp [monthLength]
  split <;> omega

theorem next_valid {d : Date} (h : d.Valid) : d.next.Valid := by
  obtain ⟨y, m, t⟩ := d
  obtain ⟨h1, h2, h3, h4⟩ := h
  simp only at h1 h2 h3 h4
  unfold Date.next
  dsimp only
  split
  · rename_i h; refine ⟨h1, h2, Nat.le_add_left 1 t, h⟩
  · split
    · rename_i h; exact ⟨Nat.le_add_left 1 m, h, Nat.le_refl _, monthLength_pos (Nat.le_add_left 1 m) h⟩
    · exact ⟨Nat.le_refl 1, show 1 ≤ 12 by decide, Nat.le_refl 1, monthLength_pos (Nat.le_refl 1) (show 1 ≤ 12 by decide)⟩

/-- Days of whole years. -/
def yearStart (y : Nat) : Nat := 365 * y + (y + 3) / 4 + (y + 399) / 400 - (y + 99) / 100

theorem yearStart_succ (y : Nat) : yearStart (y + 1) = yearStart y + if leap y then 366 else 365 := by
  have hl := leap_iff y
  unfold yearStart
  cases hy : leap y <;> simp [hy] at hl ⊢ <;> omega

theorem dayCount_next {d : Date} (h : d.Valid) : dayCount d.next = dayCount d + 1 := by
  obtain ⟨y, m, t⟩ := d
  obtain ⟨h1, h2, h3, h4⟩ := h
  simp only at h1 h2 h3 h4
  unfold Date.next
  dsimp only
  split
  · simp only [dayCount]; omega
  · rename_i hlt
    have ht : t = monthLength y m := by omega
    subst ht
    split
    · show dayCount ⟨y, m + 1, 1⟩ = _
      have hc : ∀ m t, dayCount ⟨y, m, t⟩ = yearStart y + monthStart m + (if leap y && decide (3 ≤ m) then 1 else 0) + (t - 1) := fun _ _ => rfl
      rw [hc, hc]
      generalize yearStart y = Y
      rcases month_cases h1 h2 with rfl | rfl | rfl | rfl | rfl | rfl | rfl | rfl | rfl | rfl | rfl | rfl <;>
        simp [monthStart, monthLength] <;> cases leap y <;> simp at * <;> omega
    · have hm : m = 12 := by omega
      subst hm
      have e := yearStart_succ y
      show yearStart (y + 1) + 0 + (if leap (y + 1) && decide (3 ≤ 1) then 1 else 0) + (1 - 1) =
        yearStart y + 334 + (if leap y && decide (3 ≤ 12) then 1 else 0) + (31 - 1) + 1
      rw [e]
      cases leap y <;> simp <;> omega

theorem elapsed_valid {d : Date} {n : Nat} (h : Elapsed d n) : d.Valid ∧ n = dayCount d := by
  induction h with
  | first => exact ⟨by unfold Date.Valid; decide, rfl⟩
  | next _ ih => exact ⟨next_valid ih.1, by rw [dayCount_next ih.1, ih.2]⟩

theorem elapsed_month {y m n : Nat} (h : Elapsed ⟨y, m, 1⟩ n) (t : Nat) (h1 : 1 ≤ t) (h2 : t ≤ monthLength y m) : ∃ k, Elapsed ⟨y, m, t⟩ k := by
  induction t with
  | zero => omega
  | succ t ih =>
    by_cases ht : t = 0
    · subst ht; exact ⟨n, h⟩
    · obtain ⟨k, hk⟩ := ih (by omega) (by omega)
      refine ⟨k + 1, ?_⟩
      have := hk.next
      unfold Date.next at this
      rwa [if_pos (show t < monthLength y m by omega)] at this

theorem elapsed_months {y n : Nat} (h : Elapsed ⟨y, 1, 1⟩ n) (m : Nat) (h1 : 1 ≤ m) (h2 : m ≤ 12) : ∃ k, Elapsed ⟨y, m, 1⟩ k := by
  induction m with
  | zero => omega
  | succ m ih =>
    by_cases hm : m = 0
    · subst hm; exact ⟨n, h⟩
    · obtain ⟨k, hk⟩ := ih (by omega) (by omega)
      obtain ⟨k', hk'⟩ := elapsed_month hk (monthLength y m) (monthLength_pos (by omega) (by omega)) (Nat.le_refl _)
      refine ⟨k' + 1, ?_⟩
      have := hk'.next
      unfold Date.next at this
      rwa [if_neg (Nat.lt_irrefl _), if_pos (show m < 12 by omega)] at this

theorem elapsed_years (y : Nat) : ∃ k, Elapsed ⟨y, 1, 1⟩ k := by
  induction y with
  | zero => exact ⟨0, .first⟩
  | succ y ih =>
    obtain ⟨k, hk⟩ := ih
    obtain ⟨k', hk'⟩ := elapsed_months hk 12 (by decide) (by decide)
    obtain ⟨k2, hk2⟩ := elapsed_month hk' 31 (by decide) (by simp [monthLength])
    refine ⟨k2 + 1, ?_⟩
    have := hk2.next
    unfold Date.next at this
    simpa [monthLength] using this

/-- The days of the calendar are counted by the formula. -/
theorem elapsed_iff (d : Date) (n : Nat) : Elapsed d n ↔ d.Valid ∧ n = dayCount d := by
  refine ⟨elapsed_valid, ?_⟩
  rintro ⟨h, rfl⟩
  obtain ⟨k, hk⟩ := elapsed_years d.year
  obtain ⟨k', hk'⟩ := elapsed_months hk d.month h.1 h.2.1
  obtain ⟨k2, hk2⟩ := elapsed_month hk' d.day h.2.2.1 h.2.2.2
  obtain rfl := (elapsed_valid hk2).2
  exact hk2

theorem starts_iff (d : Date) (s : Int) : Starts d s ↔ d.Valid ∧ s = ((dayCount d : Int) - 719528) * 86400 := by
  unfold Starts
  constructor
  · rintro ⟨n, k, h1, h2, rfl⟩
    obtain ⟨h3, rfl⟩ := (elapsed_iff _ _).1 h1
    obtain ⟨_, rfl⟩ := (elapsed_iff _ _).1 h2
    exact ⟨h3, rfl⟩
  · rintro ⟨h1, rfl⟩
    exact ⟨_, _, (elapsed_iff _ _).2 ⟨h1, rfl⟩, (elapsed_iff _ _).2 ⟨⟨by decide, by decide, by decide, by decide⟩, rfl⟩, rfl⟩

namespace Time

theorem isLeap_nat (y : Nat) : isLeap (y : Int) = leap y := by
  rw [Bool.eq_iff_iff, leap_iff]
  simp only [isLeap, Bool.and_eq_true, Bool.or_eq_true, beq_iff_eq, bne_iff_ne]
  omega

theorem daysIn_nat {y m : Nat} (h1 : 1 ≤ m) (h2 : m ≤ 12) : daysIn (m : Int) (y : Int) = monthLength y m := by
  unfold daysIn
  rw [isLeap_nat]
  rcases month_cases h1 h2 with rfl | rfl | rfl | rfl | rfl | rfl | rfl | rfl | rfl | rfl | rfl | rfl <;> simp [monthLength, daysBefore]
  cases leap y <;> simp

theorem daysSinceEpoch_nat (y : Nat) :
    daysSinceEpoch (y : Int) + ((absoluteZeroYear - 1) / 400 * 146097 - (1969 * 365 + 1969 / 4 - 1969 / 100 + 1969 / 400))
      = ((365 * y + (y + 3) / 4 + (y + 399) / 400 - (y + 99) / 100 : Nat) : Int) - 719528 := by
  unfold daysSinceEpoch absoluteZeroYear
  dsimp only
  omega

theorem dateUnix_nat {d : Date} (h : d.Valid) (f : Fields) (hy : f.year = d.year) (hm : f.month = d.month) (hd : f.day = d.day) :
    dateUnix f = ((dayCount d : Int) - 719528) * 86400 + (f.hour * 3600 + f.min * 60 + f.sec) := by
  obtain ⟨y, m, t⟩ := d
  obtain ⟨h1, h2, h3, h4⟩ := h
  simp only at h1 h2 h3 h4 hy hm hd
  have e := daysSinceEpoch_nat y
  have hle : (y + 99) / 100 ≤ 365 * y + (y + 3) / 4 + (y + 399) / 400 := by omega
  unfold dateUnix absoluteToUnix dayCount
  dsimp only
  rw [hy, hm, hd, isLeap_nat]
  generalize (absoluteZeroYear - 1) / 400 * 146097 - (1969 * 365 + 1969 / 4 - 1969 / 100 + 1969 / 400) = K at *
  generalize daysSinceEpoch (y : Int) = D at *
  generalize 365 * y + (y + 3) / 4 + (y + 399) / 400 - (y + 99) / 100 = Y at *
  rcases month_cases h1 h2 with rfl | rfl | rfl | rfl | rfl | rfl | rfl | rfl | rfl | rfl | rfl | rfl <;> simp [monthStart, daysBefore] <;>
    cases leap y <;> simp at * <;> omega

end Time
end Takenoco
