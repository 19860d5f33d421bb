import Verif.Lemmas.Calendar
import Verif.Lemmas.Strconv
import Verif.Spec.Literals
/-
`time.Parse` read backwards: which texts give which fields.
-/
namespace Takenoco.Time
open Spec

theorem digitOf_iff (b : UInt8) (v : Nat) : DigitOf 10 b v ↔ digit b = true ∧ digitVal b = v := by
  constructor
  · rintro ⟨h1, h2⟩
    have : ∀ v : Nat, v < 10 → ∀ b : UInt8, (lowerDigits[v]? = some b ∨ upperDigits[v]? = some b) → digit b = true ∧ digitVal b = v := by
      intro v hv b h
      have hv : v = 0 ∨ v = 1 ∨ v = 2 ∨ v = 3 ∨ v = 4 ∨ v = 5 ∨ v = 6 ∨ v = 7 ∨ v = 8 ∨ v = 9 := by omega
      rcases hv with rfl | rfl | rfl | rfl | rfl | rfl | rfl | rfl | rfl | rfl <;> simp [lowerDigits, upperDigits] at h <;> subst h <;> exact ⟨rfl, rfl⟩
    exact this v h1 b h2
  · rintro ⟨h1, h2⟩
    have hd : ∀ n < 256, digit n.toUInt8 = true → DigitOf 10 n.toUInt8 (n - 48) ∧ digitVal n.toUInt8 = ((n - 48 : Nat) : Int) := by
      unfold DigitOf; set_option maxRecDepth 4000 in decide
    have := hd b.toNat b.toNat_lt
    rw [show b.toNat.toUInt8 = b by simp [Nat.toUInt8]] at this
    obtain ⟨h3, h4⟩ := this h1
    have : b.toNat - 48 = v := by omega
    rw [← this]; exact h3

theorem digitVal_nat {b : UInt8} (h : digit b = true) : ∃ v : Nat, v < 10 ∧ DigitOf 10 b v ∧ digitVal b = v := by
  have h1 : DigitOf 10 b (digitVal b).toNat := (digitOf_iff _ _).2 ⟨h, by unfold digitVal; omega⟩
  exact ⟨_, h1.1, h1, by unfold digitVal; omega⟩

theorem isDec_digit (b : UInt8) : isDec b = digit b := rfl

theorem leadingInt_iff (s : Bytes) (a : Nat) (z : Int) : leadingInt s (a : Int) = some z ↔ ∃ n : Nat, Dig 10 a s n ∧ z = n := by
  induction s generalizing a with
  | nil =>
    constructor
    · intro h; cases h; exact ⟨a, .nil, rfl⟩
    · rintro ⟨n, h, rfl⟩; cases h; rfl
  | cons b s ih =>
    unfold leadingInt
    cases hb : digit b with
    | false =>
      refine ⟨fun h => (by cases h), fun ⟨n, h, _⟩ => ?_⟩
      cases h with
      | cons h _ => rw [digitOf_iff, hb] at h; cases h.1
    | true =>
      obtain ⟨v, _, h2, h3⟩ := digitVal_nat hb
      rw [if_pos rfl, h3, show (a : Int) * 10 + v = ((a * 10 + v : Nat) : Int) by omega, ih]
      constructor
      · rintro ⟨n, h, rfl⟩; exact ⟨n, .cons h2 h, rfl⟩
      · rintro ⟨n, h, rfl⟩
        cases h with
        | @cons _ w _ _ _ h4 h5 =>
          have : w = v := by have := ((digitOf_iff _ _).1 h4).2; omega
          subst this
          exact ⟨n, h5, rfl⟩

/-- Two digits. -/
theorem digits_two (w : Bytes) (n : Nat) :
    Digits 2 w n ↔ ∃ a b, w = [a, b] ∧ digit a = true ∧ digit b = true ∧ (n : Int) = digitVal a * 10 + digitVal b := by
  unfold Digits
  rw [numeral_iff]
  constructor
  · rintro ⟨h1, _, h2⟩
    match w, h1 with
    | [a, b], _ =>
      cases h2 with
      | @cons _ v _ _ _ h3 h4 =>
        cases h4 with
        | @cons _ u _ _ _ h5 h6 =>
          cases h6
          have h3 := (digitOf_iff _ _).1 h3
          have h5 := (digitOf_iff _ _).1 h5
          exact ⟨a, b, rfl, h3.1, h5.1, by omega⟩
  · rintro ⟨a, b, rfl, h1, h2, h3⟩
    obtain ⟨v, _, h4, h5⟩ := digitVal_nat h1
    obtain ⟨u, _, h6, h7⟩ := digitVal_nat h2
    have : n = (0 * 10 + v) * 10 + u := by omega
    exact ⟨rfl, by simp, .cons h4 (.cons h6 (this ▸ .nil))⟩

theorem digits_ne {n : Nat} {b : UInt8} {w : Bytes} (h : Numeral 10 (b :: w) n) : digit b = true ∧ b ≠ 0x2d ∧ b ≠ 0x2b := by
  obtain ⟨_, h⟩ := numeral_iff.1 h
  cases h with
  | cons h _ =>
    have := ((digitOf_iff _ _).1 h).1
    exact ⟨this, fun h => (by subst h; cases this), fun h => (by subst h; cases this)⟩

/-- `atoi` on a string that starts with a digit. -/
theorem atoi_iff {b : UInt8} (hb : digit b = true) (s : Bytes) (z : Int) : atoi (b :: s) = some z ↔ ∃ n : Nat, Numeral 10 (b :: s) n ∧ z = n := by
  unfold atoi
  dsimp only
  rw [if_neg (by rw [beq_iff_eq]; rintro rfl; cases hb), if_neg (by rw [beq_iff_eq]; rintro rfl; cases hb)]
  have := leadingInt_iff (b :: s) 0 z
  rw [show ((0 : Nat) : Int) = 0 from rfl] at this
  rw [this]
  constructor
  · rintro ⟨n, h, e⟩; exact ⟨n, numeral_iff.2 ⟨by simp, h⟩, e⟩
  · rintro ⟨n, h, e⟩; exact ⟨n, (numeral_iff.1 h).2, e⟩

theorem getnum_true_iff (v : Bytes) (z : Int) (r : Bytes) :
    getnum true v = some (z, r) ↔ ∃ w n, v = w ++ r ∧ Digits 2 w n ∧ z = n := by
  constructor
  · intro h
    match v, h with
    | a :: b :: s, h =>
      unfold getnum at h
      cases ha : digit a <;> cases hb : digit b <;> simp [ha, hb] at h
      obtain ⟨rfl, rfl⟩ := h
      obtain ⟨u, _, _, h1⟩ := digitVal_nat ha
      obtain ⟨v, _, _, h2⟩ := digitVal_nat hb
      exact ⟨[a, b], u * 10 + v, rfl, (digits_two _ _).2 ⟨a, b, rfl, ha, hb, by omega⟩, by omega⟩
    | [a], h => simp [getnum] at h
  · rintro ⟨w, n, rfl, h, rfl⟩
    obtain ⟨a, b, rfl, h1, h2, h3⟩ := (digits_two _ _).1 h
    simp [getnum, h1, h2, h3]

theorem getnum_two {fixed : Bool} {w : Bytes} {n : Nat} (h : Digits 2 w n) (r : Bytes) : getnum fixed (w ++ r) = some ((n : Int), r) := by
  obtain ⟨a, b, rfl, h1, h2, h3⟩ := (digits_two _ _).1 h
  simp [getnum, h1, h2, h3]

theorem inRange_iff (lo hi : Int) (x : Option (Int × Bytes)) (n : Int) (v : Bytes) :
    inRange lo hi x = some (n, v) ↔ x = some (n, v) ∧ lo ≤ n ∧ n ≤ hi := by
  unfold inRange
  match x with
  | none => simp
  | some (m, w) =>
    dsimp only
    split <;> simp <;> intros <;> simp_all

theorem readChunks_cons (strict : Bool) (c : Chunk) (cs : List Chunk) (f g : Fields) (v : Bytes) :
    readChunks strict (c :: cs) f v = some g ↔ ∃ f' v', readChunk strict f v c = some (f', v') ∧ readChunks strict cs f' v' = some g := by
  rw [readChunks.eq_def]
  dsimp only
  cases h : readChunk strict f v c with
  | none => simp
  | some p => 
    obtain ⟨a, b⟩ := p
    simp only [Option.some.injEq, Prod.mk.injEq]
    exact ⟨fun h => ⟨a, b, ⟨rfl, rfl⟩, h⟩, fun ⟨_, _, ⟨h1, h2⟩, h⟩ => h1 ▸ h2 ▸ h⟩

theorem read_lit {strict : Bool} {f f' : Fields} {v v' : Bytes} {b : UInt8} :
    readChunk strict f v (.lit [b]) = some (f', v') ↔ f' = f ∧ v = b :: v' := by
  unfold readChunk
  cases v with
  | nil => simp [skip]
  | cons x v =>
    simp only [skip, beq_iff_eq]
    by_cases h : x = b <;> simp [h]
    exact fun _ => ⟨Eq.symm, Eq.symm⟩

theorem read_year {strict : Bool} {f f' : Fields} {v v' : Bytes} :
    readChunk strict f v .year = some (f', v') ↔ ∃ w n, v = w ++ v' ∧ Digits 4 w n ∧ f' = { f with year := (n : Int) } := by
  constructor
  · intro h
    unfold readChunk at h
    dsimp only at h
    split at h
    · rename_i a b c d s
      split at h
      · rename_i ha
        cases e : atoi [a, b, c, d] with
        | none => rw [e] at h; cases h
        | some z =>
          rw [e] at h
          obtain ⟨n, h1, rfl⟩ := (atoi_iff ha _ _).1 e
          cases h
          exact ⟨[a, b, c, d], n, rfl, ⟨rfl, h1⟩, rfl⟩
      · cases h
    · cases h
  · rintro ⟨w, n, rfl, ⟨h1, h2⟩, rfl⟩
    match w, h1 with
    | [a, b, c, d], _ =>
      have ha := digits_ne h2
      have := (atoi_iff ha.1 [b, c, d] n).2 ⟨n, h2, rfl⟩
      simp [readChunk, ha.1, this]

theorem read_month {strict : Bool} {f f' : Fields} {v v' : Bytes} :
    readChunk strict f v .month = some (f', v') ↔ ∃ w n, v = w ++ v' ∧ Digits 2 w n ∧ 1 ≤ n ∧ n ≤ 12 ∧ f' = { f with month := (n : Int) } := by
  unfold readChunk
  rw [Option.map_eq_some_iff]
  constructor
  · rintro ⟨⟨z, r⟩, h, e⟩
    obtain ⟨h1, h2, h3⟩ := (inRange_iff _ _ _ _ _).1 h
    obtain ⟨w, n, rfl, h4, rfl⟩ := (getnum_true_iff _ _ _).1 h1
    cases e
    exact ⟨w, n, rfl, h4, by omega, by omega, rfl⟩
  · rintro ⟨w, n, rfl, h1, h2, h3, rfl⟩
    exact ⟨(n, v'), (inRange_iff _ _ _ _ _).2 ⟨getnum_two h1 _, by omega, by omega⟩, rfl⟩

theorem read_day {strict : Bool} {f f' : Fields} {v v' : Bytes} :
    readChunk strict f v .day = some (f', v') ↔ ∃ w n, v = w ++ v' ∧ Digits 2 w n ∧ f' = { f with day := (n : Int) } := by
  unfold readChunk
  rw [Option.map_eq_some_iff]
  constructor
  · rintro ⟨⟨z, r⟩, h, e⟩
    obtain ⟨w, n, rfl, h4, rfl⟩ := (getnum_true_iff _ _ _).1 h
    cases e
    exact ⟨w, n, rfl, h4, rfl⟩
  · rintro ⟨w, n, rfl, h1, rfl⟩
    exact ⟨(n, v'), getnum_two h1 _, rfl⟩

/-- The date part of both layouts, on any text. -/
theorem read_date (strict : Bool) (cs : List Chunk) (v : Bytes) (g : Fields) :
    readChunks strict (dateLayout ++ cs) {} v = some g ↔
      ∃ y m t r Y M T, v = (y ++ 0x2d :: (m ++ 0x2d :: t)) ++ r ∧ Digits 4 y Y ∧ Digits 2 m M ∧ Digits 2 t T ∧ 1 ≤ M ∧ M ≤ 12 ∧
        readChunks strict cs { year := (Y : Int), month := (M : Int), day := (T : Int) } r = some g := by
  simp only [dateLayout, List.cons_append, List.nil_append, readChunks_cons, read_lit, read_year, read_month, read_day]
  constructor
  · rintro ⟨_, _, ⟨y, Y, rfl, hy, rfl⟩, _, _, ⟨rfl, rfl⟩, _, _, ⟨m, M, rfl, hm, h1, h2, rfl⟩, _, _, ⟨rfl, rfl⟩, _, _, ⟨t, T, rfl, ht, rfl⟩, h⟩
    exact ⟨y, m, t, _, Y, M, T, by simp, hy, hm, ht, h1, h2, h⟩
  · rintro ⟨y, m, t, r, Y, M, T, rfl, hy, hm, ht, h1, h2, h⟩
    exact ⟨_, _, ⟨y, Y, by simp only [List.append_assoc, List.cons_append], hy, rfl⟩, _, _, ⟨rfl, rfl⟩, _, _, ⟨m, M, rfl, hm, h1, h2, rfl⟩, _, _, ⟨rfl, rfl⟩, _, _, ⟨t, T, rfl, ht, rfl⟩, h⟩

theorem read_hms {strict : Bool} {f : Fields} {v v' w : Bytes} {n : Nat} (hw : Digits 2 w n) (hv : v = w ++ v') :
    (readChunk strict f v .hour = if n < 24 then some ({ f with hour := (n : Int) }, v') else none) ∧
    (readChunk strict f v .minute = if n < 60 then some ({ f with min := (n : Int) }, v') else none) ∧
    (readChunk strict f v .second = if n < 60 then some ({ f with sec := (n : Int) }, v') else none) := by
  subst hv
  unfold readChunk
  simp only [getnum_two hw, inRange]
  refine ⟨?_, ?_, ?_⟩ <;> split <;> split <;> first | rfl | omega

theorem read_nanos {strict : Bool} {f : Fields} {w v' : Bytes} {n : Nat} (hw : Digits 9 w n) :
    readChunk strict f (0x2e :: (w ++ v')) .nanos = some ({ f with nsec := (n : Int) }, v') := by
  obtain ⟨h1, h2⟩ := hw
  match w, h1 with
  | a :: w, h1 =>
    have ha := digits_ne h2
    have h3 := (atoi_iff ha.1 w n).2 ⟨n, h2, rfl⟩
    unfold readChunk
    simp only [List.length_cons, List.length_append] at h1 ⊢
    rw [if_neg (by omega), List.take_left' (by simpa using h1), List.drop_left' (by simpa using h1), h3]
    simp

theorem readZone_some {strict : Bool} {s h1 h2 m1 m2 : UInt8} (hs : isSign s = true) (d1 : digit h1 = true) (d2 : digit h2 = true)
    (d3 : digit m1 = true) (d4 : digit m2 = true) (z : Int) (r : Bytes) :
    readZone strict [s, h1, h2, 0x3a, m1, m2] = some (z, r) ↔ r = [] ∧ ZoneText strict [s, h1, h2, 0x3a, m1, m2] z := by
  obtain ⟨a, a10, _, ea⟩ := digitVal_nat d1
  obtain ⟨b, b10, _, eb⟩ := digitVal_nat d2
  obtain ⟨c, c10, _, ec⟩ := digitVal_nat d3
  obtain ⟨d, d10, _, ed⟩ := digitVal_nat d4
  have H : Digits 2 [h1, h2] (a * 10 + b) := (digits_two _ _).2 ⟨h1, h2, rfl, d1, d2, by omega⟩
  have M : Digits 2 [m1, m2] (c * 10 + d) := (digits_two _ _).2 ⟨m1, m2, rfl, d3, d4, by omega⟩
  have uniq : ∀ {x y : UInt8} {n k : Nat}, Digits 2 [x, y] n → Digits 2 [x, y] k → n = k := by
    intro x y n k h h'
    obtain ⟨_, _, e, _, _, h⟩ := (digits_two _ _).1 h
    obtain ⟨_, _, e', _, _, h'⟩ := (digits_two _ _).1 h'
    cases e; cases e'; omega
  have key : ZoneText strict [s, h1, h2, 0x3a, m1, m2] z ↔ (strict = true → a * 10 + b ≤ 24 ∧ c * 10 + d ≤ 60) ∧
      (s = 0x2b ∧ z = (((a * 10 + b) * 60 + (c * 10 + d)) * 60 : Nat) ∨ s = 0x2d ∧ z = -(((a * 10 + b) * 60 + (c * 10 + d)) * 60 : Nat)) := by
    constructor
    · rintro ⟨s', h, m, H', M', e, h1', h2', h3', h4'⟩
      obtain ⟨_, _, rfl, _⟩ := (digits_two _ _).1 h1'
      cases e
      obtain rfl := uniq h1' H
      obtain rfl := uniq h2' M
      exact ⟨h3', h4'⟩
    · rintro ⟨h3', h4'⟩
      exact ⟨s, _, _, _, _, rfl, H, M, h3', h4'⟩
  have num : ∀ x y : UInt8, ∀ u v : Nat, u < 10 → v < 10 → digit x = true → digit y = true → digitVal x = u → digitVal y = v → atoi [x, y] = some ((u * 10 + v : Nat) : Int) := by
    intro x y u v _ _ hx hy ex ey
    refine (atoi_iff hx [y] _).2 ⟨u * 10 + v, ((digits_two [x, y] _).2 ⟨x, y, rfl, hx, hy, by omega⟩).2, rfl⟩
  rw [key]
  unfold readZone
  simp only [bne_self_eq_false, Bool.false_eq_true, if_false, d1, d2, d3, d4, Bool.and_self, if_true,
    num _ _ _ _ a10 b10 d1 d2 ea eb, num _ _ _ _ c10 d10 d3 d4 ec ed]
  simp only [ea, eb, ec, ed]
  have fin : ∀ x y : Int, x = y → (some (x, ([] : Bytes)) = some (z, r) ↔ r = [] ∧ z = y) := by
    rintro x _ rfl
    simp only [Option.some.injEq, Prod.mk.injEq]
    exact ⟨fun ⟨h, h'⟩ => ⟨h'.symm, h.symm⟩, fun ⟨h, h'⟩ => ⟨h'.symm, h.symm⟩⟩
  have hs : s = 0x2b ∨ s = 0x2d := by simpa [isSign] using hs
  cases strict
  · simp only [Bool.false_eq_true, if_false, false_implies, true_and]
    rcases hs with rfl | rfl
    · simpa using fin _ _ (by omega)
    · simpa using fin _ _ (by omega)
  · simp only [if_true, forall_const]
    by_cases hx : a * 10 + b ≤ 24 <;> by_cases hy : c * 10 + d ≤ 60
    · rw [if_pos (by omega), if_pos (by omega)]
      simp only [hx, hy, true_and]
      rcases hs with rfl | rfl
      · simpa using fin _ _ (by omega)
      · simpa using fin _ _ (by omega)
    · rw [if_neg (c := ((c : Int) * 10 + d ≤ 60)) (by omega)]
      simp [hx, hy]
    · rw [if_neg (c := ((a : Int) * 10 + b ≤ 24)) (by omega)]
      simp [hx, hy]
    · rw [if_neg (c := ((a : Int) * 10 + b ≤ 24)) (by omega)]
      simp [hx, hy]

end Takenoco.Time
