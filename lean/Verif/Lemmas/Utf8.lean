import Verif.Model.Utf8
/-
Facts about the UTF-8 decoder and encoder.
-/
namespace Takenoco

theorem toUInt8_toNat (n : Nat) : n.toUInt8.toNat = n % 256 := by
  simp [Nat.toUInt8]

theorem u8_ext {n : Nat} {b : UInt8} (h : n % 256 = b.toNat) : n.toUInt8 = b :=
  UInt8.toNat_inj.1 (by rw [toUInt8_toNat]; exact h)

theorem u8_lt (b : UInt8) : b.toNat < 256 := b.toNat_lt

theorem leadInfo_some {b sz lo hi : Nat} (h : leadInfo b = some (sz, lo, hi)) :
    (sz = 2 ∧ 0xc2 ≤ b ∧ b ≤ 0xdf ∧ lo = 0x80 ∧ hi = 0xbf) ∨
    (sz = 3 ∧ ((b = 0xe0 ∧ lo = 0xa0 ∧ hi = 0xbf) ∨ (0xe1 ≤ b ∧ b ≤ 0xec ∧ lo = 0x80 ∧ hi = 0xbf) ∨
      (b = 0xed ∧ lo = 0x80 ∧ hi = 0x9f) ∨ (0xee ≤ b ∧ b ≤ 0xef ∧ lo = 0x80 ∧ hi = 0xbf))) ∨
    (sz = 4 ∧ ((b = 0xf0 ∧ lo = 0x90 ∧ hi = 0xbf) ∨ (0xf1 ≤ b ∧ b ≤ 0xf3 ∧ lo = 0x80 ∧ hi = 0xbf) ∨
      (b = 0xf4 ∧ lo = 0x80 ∧ hi = 0x8f))) := by
  unfold leadInfo at h
  repeat' split at h
  all_goals simp only [Option.some.injEq, Prod.mk.injEq, reduceCtorEq] at h
  all_goals omega

/-- What decoding the beginning of a string can give. -/
inductive Dec : Bytes → Nat → Nat → Prop where
  | nil : Dec [] runeError 0
  | ascii {b : UInt8} {s : Bytes} : b.toNat < 0x80 → Dec (b :: s) b.toNat 1
  | bad {b : UInt8} {s : Bytes} : 0x80 ≤ b.toNat → Dec (b :: s) runeError 1
  | two {b0 b1 : UInt8} {s : Bytes} {r : Nat} : r = b0.toNat % 32 * 64 + b1.toNat % 64 → 0x80 ≤ r → r < 0x800 →
      encodeRune r = [b0, b1] → Dec (b0 :: b1 :: s) r 2
  | three {b0 b1 b2 : UInt8} {s : Bytes} {r : Nat} : 0x800 ≤ r → r < 0x10000 → isScalar r →
      encodeRune r = [b0, b1, b2] → Dec (b0 :: b1 :: b2 :: s) r 3
  | four {b0 b1 b2 b3 : UInt8} {s : Bytes} {r : Nat} : 0x10000 ≤ r → r ≤ 0x10ffff →
      encodeRune r = [b0, b1, b2, b3] → Dec (b0 :: b1 :: b2 :: b3 :: s) r 4

theorem decodeRune_dec (s : Bytes) : Dec s (decodeRune s).1 (decodeRune s).2 := by
  cases s with
  | nil => exact .nil
  | cons b0 rest =>
    have hb0 := u8_lt b0
    by_cases h0 : b0.toNat < 0x80
    · simp [decodeRune, h0]; exact .ascii h0
    · have bad : Dec (b0 :: rest) (runeError, 1).1 (runeError, 1).2 := .bad (by omega)
      simp only [decodeRune, h0, if_false]
      cases hl : leadInfo b0.toNat with
      | none => exact bad
      | some x =>
        obtain ⟨sz, lo, hi⟩ := x
        have hli := leadInfo_some hl
        simp only
        cases rest with
        | nil => exact bad
        | cons b1 rest1 =>
          have hb1 := u8_lt b1
          simp only
          by_cases h2 : sz = 2
          · subst h2
            simp only [if_true]
            split
            · exact bad
            · simp at hli
              obtain ⟨r, hr⟩ : ∃ r, r = b0.toNat % 32 * 64 + b1.toNat % 64 := ⟨_, rfl⟩
              rw [← hr]
              refine .two hr (by omega) (by omega) ?_
              have a1 : ¬ r < 0x80 := by omega
              have a2 : r < 0x800 := by omega
              simp only [encodeRune, a1, a2, if_false, if_true]
              rw [u8_ext (b := b0) (by omega), u8_ext (b := b1) (by omega)]
          · simp only [h2, if_false]
            cases rest1 with
            | nil => exact bad
            | cons b2 rest2 =>
              have hb2 := u8_lt b2
              simp only
              by_cases h3 : sz = 3
              · subst h3
                simp only [if_true]
                split
                · exact bad
                · split
                  · exact bad
                  · simp at hli
                    have c2 : 0x80 ≤ b2.toNat ∧ b2.toNat ≤ 0xbf := by
                      rename_i hc; simp [isCont] at hc; exact hc
                    obtain ⟨r, hr⟩ : ∃ r, r = b0.toNat % 16 * 4096 + b1.toNat % 64 * 64 + b2.toNat % 64 :=
                      ⟨_, rfl⟩
                    rw [← hr]
                    have a1 : ¬ r < 0x80 := by omega
                    have a2 : ¬ r < 0x800 := by omega
                    have a3 : isScalar r := by unfold isScalar; omega
                    have a4 : r < 0x10000 := by omega
                    refine .three (by omega) a4 a3 ?_
                    simp only [encodeRune, a1, a2, a3, a4, if_false, if_true]
                    rw [u8_ext (b := b0) (by omega), u8_ext (b := b1) (by omega), u8_ext (b := b2) (by omega)]
              · simp only [h3, if_false]
                have h4 : sz = 4 := by omega
                subst h4
                cases rest2 with
                | nil => exact bad
                | cons b3 rest3 =>
                  have hb3 := u8_lt b3
                  simp only
                  split
                  · exact bad
                  · split
                    · exact bad
                    · split
                      · exact bad
                      · simp at hli
                        rename_i hc2 hc3
                        simp [isCont] at hc2 hc3
                        obtain ⟨r, hr⟩ : ∃ r, r = b0.toNat % 8 * 262144 + b1.toNat % 64 * 4096 +
                          b2.toNat % 64 * 64 + b3.toNat % 64 := ⟨_, rfl⟩
                        rw [← hr]
                        have a1 : ¬ r < 0x80 := by omega
                        have a2 : ¬ r < 0x800 := by omega
                        have a3 : isScalar r := by unfold isScalar; omega
                        have a4 : ¬ r < 0x10000 := by omega
                        refine .four (by omega) (by omega) ?_
                        simp only [encodeRune, a1, a2, a3, a4, if_false, if_true]
                        rw [u8_ext (b := b0) (by omega), u8_ext (b := b1) (by omega),
                          u8_ext (b := b2) (by omega), u8_ext (b := b3) (by omega)]

theorem decodeRune_len_le (s : Bytes) : (decodeRune s).2 ≤ s.length := by
  have h := decodeRune_dec s
  generalize (decodeRune s).1 = r at h
  generalize (decodeRune s).2 = n at h
  cases h <;> simp

theorem decodeRune_len_le4 (s : Bytes) : (decodeRune s).2 ≤ 4 := by
  have h := decodeRune_dec s
  generalize (decodeRune s).1 = r at h
  generalize (decodeRune s).2 = n at h
  cases h <;> simp

theorem decodeRune_len_zero (s : Bytes) : (decodeRune s).2 = 0 ↔ s = [] := by
  constructor
  · intro h
    have hd := decodeRune_dec s
    generalize (decodeRune s).1 = r at hd
    generalize (decodeRune s).2 = n at hd h
    cases hd <;> simp_all
  · rintro rfl; rfl

theorem decodeRune_len_pos {s : Bytes} (h : s ≠ []) : 0 < (decodeRune s).2 := by
  rcases Nat.eq_zero_or_pos (decodeRune s).2 with h0 | h0
  · exact absurd ((decodeRune_len_zero s).1 h0) h
  · exact h0

theorem decodeRune_scalar (s : Bytes) : isScalar (decodeRune s).1 := by
  have h := decodeRune_dec s
  generalize (decodeRune s).1 = r at h
  generalize (decodeRune s).2 = n at h
  cases h with
  | nil => unfold isScalar runeError; omega
  | ascii h => unfold isScalar; omega
  | bad => unfold isScalar runeError; omega
  | two _ _ h => unfold isScalar; omega
  | three _ _ h => exact h
  | four => unfold isScalar; omega

theorem encodeRune_ascii {b : UInt8} (h : b.toNat < 0x80) : encodeRune b.toNat = [b] := by
  unfold encodeRune
  rw [if_pos h, u8_ext (b := b) (by omega)]

/-- Decoding succeeded (the rune is not the replacement for an ill-formed byte). -/
def DecodesWell (s : Bytes) : Prop := decodeRune s ≠ (runeError, 0) ∧ decodeRune s ≠ (runeError, 1)

theorem encode_decode {s : Bytes} (h : DecodesWell s) :
    encodeRune (decodeRune s).1 = s.take (decodeRune s).2 := by
  have hd := decodeRune_dec s
  have h0 : ¬ ((decodeRune s).1 = runeError ∧ (decodeRune s).2 = 0) := fun hh => h.1 (Prod.ext hh.1 hh.2)
  have h1 : ¬ ((decodeRune s).1 = runeError ∧ (decodeRune s).2 = 1) := fun hh => h.2 (Prod.ext hh.1 hh.2)
  generalize (decodeRune s).1 = r at hd h0 h1
  generalize (decodeRune s).2 = n at hd h0 h1
  cases hd with
  | nil => exact absurd ⟨rfl, rfl⟩ h0
  | ascii ha => simp [encodeRune_ascii ha]
  | bad => exact absurd ⟨rfl, rfl⟩ h1
  | two _ _ _ he => simp [he]
  | three _ _ _ he => simp [he]
  | four _ _ he => simp [he]

theorem encodeRune_length_pos (r : Nat) : 0 < (encodeRune r).length := by
  unfold encodeRune; repeat' split
  all_goals simp

theorem encodeRune_length_le (r : Nat) : (encodeRune r).length ≤ 4 := by
  unfold encodeRune; repeat' split
  all_goals simp

theorem decode_encode {r : Nat} (h : isScalar r) (rest : Bytes) :
    decodeRune (encodeRune r ++ rest) = (r, (encodeRune r).length) := by
  unfold isScalar at h
  by_cases h1 : r < 0x80
  · have : r % 256 < 128 := by omega
    simp [encodeRune, h1, decodeRune, this]; omega
  by_cases h2 : r < 0x800
  · have e : leadInfo ((0xc0 + r / 64) % 256) = some (2, 0x80, 0xbf) := by
      unfold leadInfo; rw [if_pos (by omega)]
    have a0 : ¬ (0xc0 + r / 64) % 256 < 0x80 := by omega
    have a1 : ¬ ((0x80 + r % 64) % 256 < 0x80 ∨ 0xbf < (0x80 + r % 64) % 256) := by omega
    simp only [encodeRune, h1, h2, if_false, if_true, decodeRune, List.cons_append, List.nil_append,
      toUInt8_toNat, e, a0, a1, List.length_cons, List.length_nil]
    refine Prod.ext ?_ rfl
    simp only; omega
  have hs : isScalar r := h
  by_cases h3 : r < 0x10000
  · obtain ⟨lo, hi, e, hlo⟩ : ∃ lo hi, leadInfo ((0xe0 + r / 4096) % 256) = some (3, lo, hi) ∧
        ¬ ((0x80 + r / 64 % 64) % 256 < lo ∨ hi < (0x80 + r / 64 % 64) % 256) := by
      have c1 : ¬ (0xc2 ≤ (0xe0 + r / 4096) % 256 ∧ (0xe0 + r / 4096) % 256 ≤ 0xdf) := by omega
      unfold leadInfo
      rw [if_neg c1]
      by_cases d1 : (0xe0 + r / 4096) % 256 = 0xe0
      · rw [if_pos d1]; exact ⟨_, _, rfl, by omega⟩
      rw [if_neg d1]
      by_cases d2 : 0xe1 ≤ (0xe0 + r / 4096) % 256 ∧ (0xe0 + r / 4096) % 256 ≤ 0xec
      · rw [if_pos d2]; exact ⟨_, _, rfl, by omega⟩
      rw [if_neg d2]
      by_cases d3 : (0xe0 + r / 4096) % 256 = 0xed
      · rw [if_pos d3]; exact ⟨_, _, rfl, by omega⟩
      rw [if_neg d3, if_pos (by omega)]
      exact ⟨_, _, rfl, by omega⟩
    have a0 : ¬ (0xe0 + r / 4096) % 256 < 0x80 := by omega
    have a2 : isCont ((0x80 + r % 64) % 256) = true := by simp [isCont]; omega
    simp only [encodeRune, h1, h2, h3, hs, if_false, if_true, decodeRune, List.cons_append, List.nil_append,
      toUInt8_toNat, e, a0, a2, hlo, List.length_cons, List.length_nil, Bool.not_true, Bool.false_eq_true,
      show ¬ ((3 : Nat) = 2) by decide]
    refine Prod.ext ?_ rfl
    simp only; omega
  · obtain ⟨lo, hi, e, hlo⟩ : ∃ lo hi, leadInfo ((0xf0 + r / 262144) % 256) = some (4, lo, hi) ∧
        ¬ ((0x80 + r / 4096 % 64) % 256 < lo ∨ hi < (0x80 + r / 4096 % 64) % 256) := by
      unfold leadInfo
      rw [if_neg (by omega), if_neg (by omega), if_neg (by omega), if_neg (by omega), if_neg (by omega)]
      by_cases d1 : (0xf0 + r / 262144) % 256 = 0xf0
      · rw [if_pos d1]; exact ⟨_, _, rfl, by omega⟩
      rw [if_neg d1]
      by_cases d2 : 0xf1 ≤ (0xf0 + r / 262144) % 256 ∧ (0xf0 + r / 262144) % 256 ≤ 0xf3
      · rw [if_pos d2]; exact ⟨_, _, rfl, by omega⟩
      rw [if_neg d2, if_pos (by omega)]
      exact ⟨_, _, rfl, by omega⟩
    have a0 : ¬ (0xf0 + r / 262144) % 256 < 0x80 := by omega
    have a2 : isCont ((0x80 + r / 64 % 64) % 256) = true := by simp [isCont]; omega
    have a3 : isCont ((0x80 + r % 64) % 256) = true := by simp [isCont]; omega
    simp only [encodeRune, h1, h2, h3, hs, if_false, if_true, decodeRune, List.cons_append, List.nil_append,
      toUInt8_toNat, e, a0, a2, a3, hlo, List.length_cons, List.length_nil, Bool.not_true, Bool.false_eq_true,
      show ¬ ((4 : Nat) = 2) by decide, show ¬ ((4 : Nat) = 3) by decide]
    refine Prod.ext ?_ rfl
    simp only; omega

end Takenoco
