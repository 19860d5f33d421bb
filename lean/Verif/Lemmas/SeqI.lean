import Verif.Lemmas.Text
/-
`strings.EqualFold` and `SeqI`.
-/
namespace Takenoco
open Spec

theorem toLower_toNat (a : Char) : a.toLower.toNat = if 65 ≤ a.toNat ∧ a.toNat ≤ 90 then a.toNat + 32 else a.toNat := by
  unfold Char.toLower
  have h1 : a.val ≥ 'A'.val ↔ 65 ≤ a.toNat := UInt32.le_iff_toNat_le
  have h2 : a.val ≤ 'Z'.val ↔ a.toNat ≤ 90 := UInt32.le_iff_toNat_le
  by_cases h : 65 ≤ a.toNat ∧ a.toNat ≤ 90
  · rw [if_pos h, dif_pos ⟨h1.2 h.1, h2.2 h.2⟩]
    show (a.val + 32).toNat = a.val.toNat + 32
    have : a.val.toNat ≤ 90 := h.2
    rw [UInt32.toNat_add]
    show (a.val.toNat + 32) % 4294967296 = _
    omega
  · rw [if_neg h, dif_neg (fun hh => h ⟨h1.1 hh.1, h2.1 hh.2⟩)]

theorem lower_eq_iff {a b : Char} :
    a.toLower = b.toLower ↔ a = b ∨ (65 ≤ min a.toNat b.toNat ∧ min a.toNat b.toNat ≤ 90 ∧
      max a.toNat b.toNat = min a.toNat b.toNat + 32) := by
  have e : ∀ x y : Char, x = y ↔ x.toNat = y.toNat := fun x y => ⟨congrArg _, char_toNat_inj⟩
  rw [e, e a b, toLower_toNat, toLower_toNat]
  split <;> split <;> omega

theorem sameFold_iff (orbit : Nat → Nat → Bool) (a b : Char) :
    (a.toNat = b.toNat ∨ (if max a.toNat b.toNat < 0x80 then
      inRange 0x41 0x5a (min a.toNat b.toNat) && max a.toNat b.toNat == min a.toNat b.toNat + 32
      else orbit (min a.toNat b.toNat) (max a.toNat b.toNat)) = true) ↔ SameFold orbit a b := by
  have e : a = b ↔ a.toNat = b.toNat := ⟨congrArg _, char_toNat_inj⟩
  unfold SameFold
  by_cases h : max a.toNat b.toNat < 0x80
  · have ha : a.toNat < 0x80 := by omega
    have hb : b.toNat < 0x80 := by omega
    have hn : ¬ (0x80 ≤ a.toNat ∨ 0x80 ≤ b.toNat) := by omega
    simp only [h, if_true, ha, hb, hn, true_and, false_and, or_false, lower_eq_iff, inRange, Bool.and_eq_true,
      decide_eq_true_eq, beq_iff_eq, e, and_assoc]
    omega
  · have h1 : ¬ (a.toNat < 0x80 ∧ b.toNat < 0x80) := by omega
    have hn : 0x80 ≤ a.toNat ∨ 0x80 ≤ b.toNat := by omega
    simp only [h, if_false, hn, true_and, e]
    constructor
    · rintro (h | h)
      · exact .inl h
      · exact .inr (.inr h)
    · rintro (h | h | h)
      · exact .inl h
      · exact absurd ⟨h.1, h.2.1⟩ h1
      · exact .inr h

theorem nextChar_drop_lt {s : Bytes} {ch : Char} {n : Nat} (h : NextChar s ch n) : (s.drop n).length < s.length := by
  obtain ⟨hne, hd⟩ := nextChar_decode h
  have h1 := decodeRune_len_pos hne
  rw [hd] at h1
  have : s.length ≠ 0 := fun h => hne (List.length_eq_zero_iff.1 h)
  rw [List.length_drop]; simp only at h1; omega

theorem ite_false_iff {P : Prop} [Decidable P] (b : Bool) : (if P then b else false) = true ↔ P ∧ b = true := by
  split <;> simp [*]

theorem equalFold_iff (orbit : Nat → Nat → Bool) (k : Nat) (s t : Bytes) (hk : s.length ≤ k) :
    equalFold orbit k s t = true ↔ FoldEq orbit s t := by
  have nilL : ∀ t, FoldEq orbit [] t ↔ t = [] := fun t =>
    ⟨fun h => by
      cases h with
      | nil => rfl
      | cons h => exact absurd rfl (nextChar_decode h).1, fun h => by subst h; exact .nil⟩
  induction k generalizing s t with
  | zero =>
    have : s = [] := List.length_eq_zero_iff.1 (by omega)
    subst this
    rw [nilL]; simp [equalFold]
  | succ k ih =>
    cases s with
    | nil => rw [nilL]; cases t <;> simp [equalFold]
    | cons b s =>
      cases t with
      | nil =>
        refine ⟨fun h => by simp [equalFold] at h, fun h => ?_⟩
        cases h with
        | cons _ h => exact absurd rfl (nextChar_decode h).1
      | cons b' t =>
        obtain ⟨x, n, hx⟩ := nextChar_total (s := b :: s) (by simp)
        obtain ⟨y, m, hy⟩ := nextChar_total (s := b' :: t) (by simp)
        have hlt := nextChar_drop_lt hx
        rw [equalFold]
        · simp only [(nextChar_decode hx).2, (nextChar_decode hy).2]
          have ih' := ih ((b :: s).drop n) ((b' :: t).drop m) (by omega)
          rw [ite_false_iff, sameFold_iff]
          refine Iff.trans (and_congr_right fun _ => ih') ?_
          constructor
          · rintro ⟨h1, h2⟩; exact .cons hx hy h1 h2
          · intro h
            cases h with
            | cons hx' hy' h1 h2 =>
              obtain ⟨rfl, rfl⟩ := nextChar_unique hx hx'
              obtain ⟨rfl, rfl⟩ := nextChar_unique hy hy'
              exact ⟨h1, h2⟩
        · simp
        · simp
        · simp

theorem seqIS_eq (orbit : Nat → Nat → Bool) (s : Bytes) (c : Ctx) :
    seqIS orbit s c =
      if c.pos + s.length ≤ c.str.length ∧
          equalFold orbit s.length ((c.str.drop c.pos).take s.length) s = true then
        .ok (tokenMatched ":string:SeqI" ((c.str.drop c.pos).take s.length) s.length c, none)
      else .ok (tokenUnmatched ":string:SeqI" c, none) := by
  unfold seqIS
  by_cases hl : c.pos + s.length ≤ c.str.length
  · have e : ((c.str.drop c.pos).take s.length).length = s.length := by
      rw [List.length_take, List.length_drop]; omega
    by_cases h : equalFold orbit s.length ((c.str.drop c.pos).take s.length) s = true
    · rw [if_pos ⟨hl, h⟩]
      exact light_matched _ (o := pushStr ":string:SeqI" ((c.str.drop c.pos).take s.length) s.length c)
        (by simp only [hl, if_true, e, h]) rfl
    · rw [if_neg (fun hh => h hh.2)]
      exact light_unmatched _ (o := unm c) (by simp only [hl, if_true, e, h]; rfl) rfl
  · rw [if_neg (fun hh => hl hh.1)]
    exact light_unmatched _ (o := unm c) (by simp only [hl, if_false]) rfl

/-- On ASCII strings, equality up to case is equality after lower-casing every byte. -/
def asciiLower (b : UInt8) : UInt8 := if 0x41 ≤ b ∧ b ≤ 0x5a then b + 0x20 else b

theorem ascii_next (b : UInt8) (s : Bytes) (h : b < 0x80) : ∃ ch : Char, NextChar (b :: s) ch 1 ∧ ch.toNat = b.toNat := by
  have hb : b.toNat < 0x80 := UInt8.lt_iff_toNat_lt.1 h
  have hd : decodeRune (b :: s) = (b.toNat, 1) := by simp [decodeRune, hb]
  obtain ⟨ch, hch⟩ := exists_char (r := b.toNat) (by unfold isScalar; omega)
  exact ⟨ch, nextChar_iff.2 ⟨by simp, by rw [hd, hch]⟩, hch⟩

theorem foldEq_ascii (orbit : Nat → Nat → Bool) (s t : Bytes) (hs : ∀ b ∈ s, b < 0x80) (ht : ∀ b ∈ t, b < 0x80) :
    FoldEq orbit s t ↔ s.map asciiLower = t.map asciiLower := by
  have low : ∀ b : UInt8, b < 0x80 → (asciiLower b).toNat = if 65 ≤ b.toNat ∧ b.toNat ≤ 90 then b.toNat + 32 else b.toNat := by
    intro b hb
    have hb' : b.toNat < 0x80 := UInt8.lt_iff_toNat_lt.1 hb
    unfold asciiLower
    have e : (0x41 ≤ b ∧ b ≤ 0x5a) ↔ (65 ≤ b.toNat ∧ b.toNat ≤ 90) := by
      rw [UInt8.le_iff_toNat_le, UInt8.le_iff_toNat_le]; exact Iff.rfl
    by_cases h : 65 ≤ b.toNat ∧ b.toNat ≤ 90
    · rw [if_pos h, if_pos (e.2 h), UInt8.toNat_add]
      show (b.toNat + 32) % 256 = _
      omega
    · rw [if_neg h, if_neg (fun hh => h (e.1 hh))]
  induction s generalizing t with
  | nil =>
    constructor
    · intro h
      cases h with
      | nil => rfl
      | cons h => exact absurd rfl (nextChar_decode h).1
    · intro h
      have : t = [] := by simpa using h.symm
      subst this; exact .nil
  | cons b s ih =>
    obtain ⟨x, hx, ex⟩ := ascii_next b s (hs b (by simp))
    cases t with
    | nil =>
      constructor
      · intro h
        cases h with
        | cons _ h => exact absurd rfl (nextChar_decode h).1
      · intro h; simp at h
    | cons b' t =>
      obtain ⟨y, hy, ey⟩ := ascii_next b' t (ht b' (by simp))
      have hbl : b.toNat < 0x80 := UInt8.lt_iff_toNat_lt.1 (hs b (by simp))
      have hbl' : b'.toNat < 0x80 := UInt8.lt_iff_toNat_lt.1 (ht b' (by simp))
      have key : SameFold orbit x y ↔ asciiLower b = asciiLower b' := by
        rw [← UInt8.toNat_inj, low b (hs b (by simp)), low b' (ht b' (by simp)), ← ex, ← ey]
        unfold SameFold
        have e : ∀ x y : Char, x = y ↔ x.toNat = y.toNat := fun x y => ⟨congrArg _, char_toNat_inj⟩
        rw [e, e x.toLower, toLower_toNat, toLower_toNat]
        rw [← ex] at hbl; rw [← ey] at hbl'
        simp only [hbl, hbl', true_and, show ¬ (0x80 ≤ x.toNat ∨ 0x80 ≤ y.toNat) by omega, false_and, or_false]
        constructor
        · rintro (h | h)
          · rw [h]
          · exact h
        · exact .inr
      have ih' := ih t (fun b hb => hs b (by simp [hb])) (fun b hb => ht b (by simp [hb]))
      rw [List.map_cons, List.map_cons, List.cons.injEq, ← key]
      refine Iff.trans ?_ (and_congr_right fun _ => ih')
      constructor
      · intro h
        cases h with
        | cons hx' hy' h1 h2 =>
          obtain ⟨rfl, rfl⟩ := nextChar_unique hx hx'
          obtain ⟨rfl, rfl⟩ := nextChar_unique hy hy'
          exact ⟨h1, h2⟩
      · rintro ⟨h1, h2⟩; exact .cons hx hy h1 h2

end Takenoco
