import Verif.Model.Strconv
import Verif.Spec.Numeral
/-
`strconv.ParseUint` / `ParseInt` against numerals.
-/
namespace Takenoco
open Spec

theorem digitVal_nat : ∀ n, n < 256 → ∀ v, v < 36 →
    ((digitVal n.toUInt8 = some v) ↔ (lowerDigits[v]? = some n.toUInt8 ∨ upperDigits[v]? = some n.toUInt8)) := by
  decide +kernel

theorem digitVal_lt {b : UInt8} {v : Nat} (h : digitVal b = some v) : v < 36 := by
  unfold digitVal at h
  simp only at h
  split at h
  · cases h; omega
  split at h
  · cases h; omega
  split at h
  · cases h; omega
  · cases h

theorem digitVal_iff (b : UInt8) (v : Nat) :
    digitVal b = some v ↔ v < 36 ∧ (lowerDigits[v]? = some b ∨ upperDigits[v]? = some b) := by
  have hb : b.toNat.toUInt8 = b := by simp [Nat.toUInt8]
  by_cases hv : v < 36
  · have := digitVal_nat b.toNat b.toNat_lt v hv
    rw [hb] at this
    rw [this]; simp [hv]
  · exact ⟨fun h => absurd (digitVal_lt h) hv, fun h => absurd h.1 hv⟩

theorem digitOf_iff {base : Nat} (hb : base ≤ 36) (b : UInt8) (v : Nat) :
    DigitOf base b v ↔ digitVal b = some v ∧ v < base := by
  rw [digitVal_iff]; unfold DigitOf
  constructor
  · rintro ⟨h1, h2⟩; exact ⟨⟨by omega, h2⟩, h1⟩
  · rintro ⟨⟨_, h2⟩, h1⟩; exact ⟨h1, h2⟩

/-- A digit string read after the digits that gave the first number. -/
inductive Dig (base : Nat) : Nat → Bytes → Nat → Prop where
  | nil {a : Nat} : Dig base a [] a
  | cons {a v n : Nat} {b : UInt8} {s : Bytes} : DigitOf base b v → Dig base (a * base + v) s n → Dig base a (b :: s) n

theorem Dig.snoc {base a n v : Nat} {s : Bytes} {b : UInt8} (h : Dig base a s n) (hb : DigitOf base b v) :
    Dig base a (s ++ [b]) (n * base + v) := by
  induction h with
  | nil => exact .cons hb .nil
  | cons h' _ ih => exact .cons h' (ih)

theorem dig_of_numeral {base n : Nat} {s : Bytes} (h : Numeral base s n) : s ≠ [] ∧ Dig base 0 s n := by
  induction h with
  | digit h => exact ⟨by simp, .cons h (by rw [Nat.zero_mul, Nat.zero_add]; exact .nil)⟩
  | snoc _ h ih => exact ⟨by simp, ih.2.snoc h⟩

theorem numeral_append {base a n : Nat} {s t : Bytes} (h : Numeral base s a) (ht : Dig base a t n) :
    Numeral base (s ++ t) n := by
  induction ht generalizing s with
  | nil => rw [List.append_nil]; exact h
  | cons h' _ ih =>
    have := ih (h.snoc h')
    simpa using this

theorem numeral_iff {base n : Nat} {s : Bytes} : Numeral base s n ↔ s ≠ [] ∧ Dig base 0 s n := by
  refine ⟨dig_of_numeral, fun ⟨h1, h2⟩ => ?_⟩
  cases h2 with
  | nil => exact absurd rfl h1
  | cons h h' =>
    rw [Nat.zero_mul, Nat.zero_add] at h'
    exact numeral_append (.digit h) h'

theorem Dig.le {base a n : Nat} {s : Bytes} (hb : 0 < base) (h : Dig base a s n) : a ≤ n := by
  induction h with
  | nil => exact Nat.le_refl _
  | cons _ _ ih => exact Nat.le_trans (Nat.le_trans (Nat.le_mul_of_pos_right _ hb) (Nat.le_add_right _ _)) ih

theorem parseDigits_iff {base : Nat} (h0 : 0 < base) (hb : base ≤ 36) (s : Bytes) (a n : Nat) (ha : a < 2 ^ 64) :
    parseDigits false base a s = .ok n ↔ Dig base a s n ∧ n < 2 ^ 64 := by
  induction s generalizing a with
  | nil =>
    constructor
    · intro h; cases h; exact ⟨.nil, ha⟩
    · rintro ⟨h, _⟩; cases h; rfl
  | cons b s ih =>
    unfold parseDigits
    simp only [Bool.false_eq_true, false_and, if_false]
    cases hd : digitVal b with
    | none =>
      refine ⟨fun h => by simp at h, fun ⟨h, _⟩ => ?_⟩
      cases h with
      | cons h _ => rw [digitOf_iff hb, hd] at h; cases h.1
    | some v =>
      by_cases hv : base ≤ v
      · simp only [hv, if_true]
        refine ⟨fun h => by simp at h, fun ⟨h, _⟩ => ?_⟩
        cases h with
        | cons h _ =>
          rw [digitOf_iff hb, hd] at h
          cases h.1; omega
      · have hdig : DigitOf base b v := (digitOf_iff hb b v).2 ⟨hd, by omega⟩
        have huniq : ∀ v', DigitOf base b v' → v' = v := fun v' h => by
          rw [digitOf_iff hb, hd] at h; exact (Option.some.inj h.1).symm
        simp only [hv, if_false]
        by_cases hr : 2 ^ 64 ≤ a * base + v
        · simp only [hr, if_true]
          refine ⟨fun h => by simp at h, fun ⟨h, hn⟩ => ?_⟩
          cases h with
          | cons h h' =>
            rw [huniq _ h] at h'
            have := h'.le h0
            omega
        · simp only [hr, if_false]
          rw [ih _ (by omega)]
          constructor
          · rintro ⟨h, hn⟩; exact ⟨.cons hdig h, hn⟩
          · rintro ⟨h, hn⟩
            cases h with
            | cons h h' => rw [huniq _ h] at h'; exact ⟨h', hn⟩

theorem parseUint_iff {base : Nat} (h2 : 2 ≤ base) (hb : base ≤ 36) (s : Bytes) (n : Nat) :
    parseUint s base = .ok n ↔ Numeral base s n ∧ n < 2 ^ 64 := by
  unfold parseUint
  rw [numeral_iff]
  by_cases hs : s = []
  · simp only [hs, if_true]
    exact ⟨fun h => by simp at h, fun h => absurd rfl h.1.1⟩
  · have hbi : (2 : Int) ≤ base ∧ (base : Int) ≤ 36 := by omega
    simp only [hs, hbi, if_false, Int.toNat_natCast]
    rw [if_pos (by simp), parseDigits_iff (by omega) hb s 0 n (by decide)]
    simp [hs]

theorem Spec.Numeral.unique {base n m : Nat} (hb : base ≤ 36) {s : Bytes} (h : Numeral base s n) (h' : Numeral base s m) : n = m := by
  have key : ∀ s a n m, Dig base a s n → Dig base a s m → n = m := by
    intro s
    induction s with
    | nil => intro a n m h h'; cases h; cases h'; rfl
    | cons b s ih =>
      intro a n m h h'
      cases h with
      | cons h1 h2 =>
        cases h' with
        | cons h1' h2' =>
          have : (some _ : Option Nat) = some _ := ((digitOf_iff hb _ _).1 h1).1.symm.trans ((digitOf_iff hb _ _).1 h1').1
          cases this
          exact ih _ _ _ h2 h2'
  exact key _ _ _ _ (dig_of_numeral h).2 (dig_of_numeral h').2

theorem Spec.Numeral.head {base n : Nat} (hb : base ≤ 36) {b : UInt8} {s : Bytes} (h : Numeral base (b :: s) n) : b ≠ 0x2b ∧ b ≠ 0x2d := by
  cases (dig_of_numeral h).2 with
  | cons h _ =>
    have := ((digitOf_iff hb _ _).1 h).1
    constructor
    · rintro rfl; simp [digitVal] at this
    · rintro rfl; simp [digitVal] at this

theorem parseInt_iff {base : Nat} (h2 : 2 ≤ base) (hb : base ≤ 36) (s : Bytes) (v : Int) :
    parseInt s base = .ok v ↔ SignedNumeral base s v ∧ -2 ^ 63 ≤ v ∧ v < 2 ^ 63 := by
  cases s with
  | nil =>
    refine ⟨fun h => by simp [parseInt] at h, fun ⟨h, _⟩ => ?_⟩
    have : ∀ s, SignedNumeral base s v → s ≠ [] := by
      intro s hs
      cases hs with
      | none h1 => exact (dig_of_numeral h1).1
      | plus h => simp
      | minus h => simp
    exact absurd rfl (this _ h)
  | cons c cs =>
    unfold parseInt
    simp only
    by_cases hm : c = 0x2d
    · subst hm
      simp only [or_true, if_true, beq_self_eq_true, Bool.not_true, Bool.false_eq_true, false_and, if_false, true_and]
      have hsn : SignedNumeral base (0x2d :: cs) v ↔ ∃ n, Numeral base cs n ∧ v = -(n : Int) := by
        constructor
        · intro h
          generalize hs : (0x2d : UInt8) :: cs = s at h
          cases h with
          | none h => subst hs; exact absurd rfl (h.head hb).2
          | plus h => simp at hs
          | minus h => simp at hs; subst hs; exact ⟨_, h, rfl⟩
        · rintro ⟨n, h, rfl⟩; exact .minus h
      rw [hsn]
      cases hp : parseUint cs base with
      | error e =>
        refine ⟨fun h => by simp at h, fun ⟨⟨n, hn, hv⟩, h1, _⟩ => ?_⟩
        have := (parseUint_iff h2 hb cs n).2 ⟨hn, by omega⟩
        rw [hp] at this; cases this
      | ok un =>
        obtain ⟨hn, hlt⟩ := (parseUint_iff h2 hb cs un).1 hp
        simp only
        by_cases h63 : 2 ^ 63 < un
        · simp only [h63, if_true]
          refine ⟨fun h => by simp at h, fun ⟨⟨n, hn', hv⟩, h1, _⟩ => ?_⟩
          have := hn.unique hb hn'
          omega
        · simp only [h63, if_false]
          constructor
          · intro h; cases h; exact ⟨⟨un, hn, rfl⟩, by omega, by omega⟩
          · rintro ⟨⟨n, hn', hv⟩, _, _⟩
            have := hn.unique hb hn'
            subst this; subst hv; rfl
    · have hbq : (c == 0x2d) = false := by simpa using hm
      simp only [hm, or_false, hbq, Bool.not_false, true_and, Bool.false_eq_true, if_false, false_and]
      have hsn : SignedNumeral base (c :: cs) v ↔ ∃ n : Nat, Numeral base (if c = 0x2b then cs else c :: cs) n ∧ v = n := by
        constructor
        · intro h
          generalize hs : c :: cs = s at h
          cases h with
          | none h =>
            subst hs
            rw [if_neg (h.head hb).1]
            exact ⟨_, h, rfl⟩
          | plus h => simp at hs; obtain ⟨rfl, rfl⟩ := hs; exact ⟨_, h, rfl⟩
          | minus h => simp at hs; exact absurd hs.1 hm
        · rintro ⟨n, h, rfl⟩
          by_cases hc : c = 0x2b
          · rw [if_pos hc] at h; subst hc; exact .plus h
          · rw [if_neg hc] at h; exact .none h
      rw [hsn]
      generalize (if c = 0x2b then cs else c :: cs) = body
      cases hp : parseUint body base with
      | error e =>
        refine ⟨fun h => by simp at h, fun ⟨⟨n, hn, hv⟩, h1, _⟩ => ?_⟩
        have := (parseUint_iff h2 hb body n).2 ⟨hn, by omega⟩
        rw [hp] at this; cases this
      | ok un =>
        obtain ⟨hn, hlt⟩ := (parseUint_iff h2 hb body un).1 hp
        simp only
        by_cases h63 : 2 ^ 63 ≤ un
        · simp only [h63, if_true]
          refine ⟨fun h => by simp at h, fun ⟨⟨n, hn', hv⟩, h1, _⟩ => ?_⟩
          have := hn.unique hb hn'
          omega
        · simp only [h63, if_false]
          constructor
          · intro h; cases h; exact ⟨⟨un, hn, rfl⟩, by omega, by omega⟩
          · rintro ⟨⟨n, hn', hv⟩, _, _⟩
            have := hn.unique hb hn'
            subst this; subst hv; rfl

/-- Decimal formatting. -/
def decimal (n : Nat) : Bytes := (Nat.toDigits 10 n).map fun ch => ch.toNat.toUInt8

theorem numeral_decimal (n : Nat) : Numeral 10 (decimal n) n := by
  have digit : ∀ d, d < 10 → DigitOf 10 (d.digitChar.toNat.toUInt8) d := by unfold DigitOf; decide
  induction n using Nat.strongRecOn with
  | _ n ih =>
    unfold decimal
    by_cases h : n < 10
    · rw [Nat.toDigits_of_lt_base h]
      exact .digit (digit n h)
    · rw [Nat.toDigits_of_base_le (by omega) (by omega), List.map_append]
      have := (ih (n / 10) (by omega)).snoc (digit (n % 10) (by omega))
      have e : n / 10 * 10 + n % 10 = n := by omega
      rw [e] at this
      exact this

end Takenoco
