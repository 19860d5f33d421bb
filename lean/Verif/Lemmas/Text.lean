import Verif.Lemmas.Terminals
import Verif.Lemmas.Utf8
import Verif.Spec.Text
/-
The model's decoder and encoder against Lean's UTF-8 encoder.
-/
namespace Takenoco
open Spec

theorem char_scalar (ch : Char) : isScalar ch.toNat := by
  have h := ch.valid
  unfold UInt32.isValidChar Nat.isValidChar at h
  show ch.val.toNat < 0xd800 ∨ (0xe000 ≤ ch.val.toNat ∧ ch.val.toNat ≤ 0x10ffff)
  omega

/-- The scalar values are the characters. -/
theorem exists_char {r : Nat} (h : isScalar r) : ∃ ch : Char, ch.toNat = r := by
  have hv : r.isValidChar := by unfold isScalar at h; unfold Nat.isValidChar; omega
  refine ⟨Char.ofNat r, ?_⟩
  unfold Char.ofNat
  rw [dif_pos hv]
  show (Char.ofNatAux r hv).val.toNat = r
  simp [Char.ofNatAux]

theorem char_toNat_inj {a b : Char} (h : a.toNat = b.toNat) : a = b := by
  apply Char.ext
  exact UInt32.toNat_inj.1 h

theorem encode_char (ch : Char) : encodeRune ch.toNat = utf8 ch := by
  have hs := char_scalar ch
  have hs' := hs
  unfold isScalar at hs'
  unfold encodeRune utf8 String.utf8EncodeChar
  show _ = (if ch.toNat ≤ 0x7f then _ else _ : List UInt8)
  have e : ch.val.toNat = ch.toNat := rfl
  simp only [e]
  generalize ch.toNat = v at *
  by_cases h1 : v < 0x80
  · have b1 : v ≤ 0x7f := by omega
    simp only [h1, b1, if_true]
  have b1 : ¬ v ≤ 0x7f := by omega
  by_cases h2 : v < 0x800
  · have b2 : v ≤ 0x7ff := by omega
    simp only [h1, b1, h2, b2, if_true, if_false]
    congr 1
    · exact congrArg Nat.toUInt8 (by omega : 0xc0 + v / 64 = v / 64 % 0x20 + 0xc0)
    · congr 1
      exact congrArg Nat.toUInt8 (by omega : 0x80 + v % 64 = v % 0x40 + 0x80)
  have b2 : ¬ v ≤ 0x7ff := by omega
  by_cases h3 : v < 0x10000
  · have b3 : v ≤ 0xffff := by omega
    simp only [h1, b1, h2, b2, h3, b3, hs, if_true, if_false]
    congr 1
    · exact congrArg Nat.toUInt8 (by omega : 0xe0 + v / 4096 = v / 4096 % 0x10 + 0xe0)
    · congr 1
      · exact congrArg Nat.toUInt8 (by omega : 0x80 + v / 64 % 64 = v / 64 % 0x40 + 0x80)
      · congr 1
        exact congrArg Nat.toUInt8 (by omega : 0x80 + v % 64 = v % 0x40 + 0x80)
  · have b3 : ¬ v ≤ 0xffff := by omega
    simp only [h1, b1, h2, b2, h3, b3, hs, if_true, if_false]
    congr 1
    · exact congrArg Nat.toUInt8 (by omega : 0xf0 + v / 262144 = v / 262144 % 0x08 + 0xf0)
    · congr 1
      · exact congrArg Nat.toUInt8 (by omega : 0x80 + v / 4096 % 64 = v / 4096 % 0x40 + 0x80)
      · congr 1
        · exact congrArg Nat.toUInt8 (by omega : 0x80 + v / 64 % 64 = v / 64 % 0x40 + 0x80)
        · congr 1
          exact congrArg Nat.toUInt8 (by omega : 0x80 + v % 64 = v % 0x40 + 0x80)

theorem decode_utf8 (ch : Char) (rest : Bytes) :
    decodeRune (utf8 ch ++ rest) = (ch.toNat, (utf8 ch).length) := by
  rw [← encode_char]
  exact decode_encode (char_scalar ch) rest

theorem utf8_length_pos (ch : Char) : 0 < (utf8 ch).length := by
  rw [← encode_char]; exact encodeRune_length_pos _

theorem utf8_length_le (ch : Char) : (utf8 ch).length ≤ 4 := by
  rw [← encode_char]; exact encodeRune_length_le _

/-- Decoding succeeds exactly on an encoded character. -/
theorem decodesWell_iff (s : Bytes) : DecodesWell s ↔ ∃ ch rest, s = utf8 ch ++ rest := by
  constructor
  · intro h
    obtain ⟨ch, hch⟩ := exists_char (decodeRune_scalar s)
    have h1 := encode_decode h
    rw [← hch, encode_char] at h1
    exact ⟨ch, s.drop (decodeRune s).2, by rw [h1, List.take_append_drop]⟩
  · rintro ⟨ch, rest, rfl⟩
    rw [DecodesWell, decode_utf8]
    have h0 := utf8_length_pos ch
    constructor
    · intro h; have := congrArg Prod.snd h; simp only at this; omega
    · intro h
      have h1 : ch.toNat = runeError := congrArg Prod.fst h
      have h2 : (utf8 ch).length = 1 := congrArg Prod.snd h
      rw [← encode_char, h1] at h2
      simp [encodeRune, runeError, isScalar] at h2

theorem nextChar_decode {s : Bytes} {ch : Char} {n : Nat} (h : NextChar s ch n) :
    s ≠ [] ∧ decodeRune s = (ch.toNat, n) := by
  cases h with
  | char ch rest =>
    refine ⟨?_, decode_utf8 ch rest⟩
    have := utf8_length_pos ch
    intro h
    have := congrArg List.length h
    rw [List.length_append, List.length_nil] at this
    omega
  | bad hs hb =>
    refine ⟨hs, ?_⟩
    have hd : ¬ DecodesWell s := fun h => by
      obtain ⟨ch, rest, h⟩ := (decodesWell_iff s).1 h
      exact hb ch rest h
    have hp := decodeRune_len_pos hs
    have h0 : decodeRune s ≠ (runeError, 0) := fun h => by rw [h] at hp; simp at hp
    have h1 : decodeRune s = (runeError, 1) := Classical.byContradiction fun h => hd ⟨h0, h⟩
    rw [h1]; rfl

theorem nextChar_total {s : Bytes} (hs : s ≠ []) : ∃ ch n, NextChar s ch n := by
  by_cases h : ∃ ch rest, s = utf8 ch ++ rest
  · obtain ⟨ch, rest, rfl⟩ := h; exact ⟨_, _, .char ch rest⟩
  · exact ⟨_, _, .bad hs fun ch rest he => h ⟨ch, rest, he⟩⟩

theorem nextChar_iff {s : Bytes} {ch : Char} {n : Nat} :
    NextChar s ch n ↔ s ≠ [] ∧ decodeRune s = (ch.toNat, n) := by
  refine ⟨nextChar_decode, fun ⟨hs, hd⟩ => ?_⟩
  obtain ⟨ch', n', h⟩ := nextChar_total hs
  have := (nextChar_decode h).2
  rw [hd] at this
  cases Prod.mk.inj this with
  | intro h1 h2 => rw [char_toNat_inj h1, h2]; exact h

theorem nextChar_unique {s : Bytes} {ch ch' : Char} {n n' : Nat} (h : NextChar s ch n) (h' : NextChar s ch' n') :
    ch = ch' ∧ n = n' := by
  have e := (nextChar_decode h).2.symm.trans (nextChar_decode h').2
  exact ⟨char_toNat_inj (congrArg Prod.fst e), congrArg Prod.snd e⟩

theorem tokenMatched_eq (cls : String) (v : Bytes) (n : Nat) (c : Ctx) :
    tokenMatched cls v n c = advance cls v n c := rfl

/-- Every one-character terminal, in terms of characters. -/
theorem charTerminal_of (cls : String) (p : Nat → Bool) (S : Char → Prop)
    (h : ∀ ch : Char, p ch.toNat = true ↔ S ch) : CharTerminal (lightParser cls (charFn cls p)) cls S := by
  intro c hc
  rw [charFn_eq cls cls p c hc]
  refine ⟨fun ch n hn hS => ?_, fun ch n hn hS => ?_, fun he => ?_⟩
  · obtain ⟨hne, hd⟩ := nextChar_decode hn
    have hlt : c.pos < c.str.length := by
      rcases Nat.lt_or_ge c.pos c.str.length with h | h
      · exact h
      · exact absurd (List.drop_eq_nil_of_le h) hne
    rw [hd, if_pos ⟨hlt, (h ch).2 hS⟩]
    simp only [encode_char]
    rfl
  · obtain ⟨hne, hd⟩ := nextChar_decode hn
    rw [hd, if_neg (fun hh => hS ((h ch).1 hh.2))]
    rfl
  · rw [if_neg (by omega)]; rfl

end Takenoco
