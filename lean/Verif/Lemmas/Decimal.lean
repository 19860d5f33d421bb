import Verif.Lemmas.StrTransformers
import Verif.Lemmas.Strconv
/-
Helper lemmas on decimal notation.
-/
namespace Takenoco
open Spec

/-- The decimal notation of a number, as printed by Lean. -/
def decimalText (v : Int) : Bytes := utf8s (toString v).toList

theorem utf8_digit {ch : Char} (hd : ch.isDigit = true) : utf8 ch = [ch.toNat.toUInt8] := by
  have h2 : ch.toNat < 0x80 := by
    unfold Char.isDigit at hd
    simp at hd
    have := hd.2
    rw [UInt32.le_iff_toNat_le] at this
    show ch.val.toNat < _
    have e : (57 : UInt32).toNat = 57 := rfl
    omega
  have e := encode_char ch
  rw [← e]
  unfold encodeRune
  rw [if_pos h2]

theorem utf8s_decimal (n : Nat) : utf8s (Nat.repr n).toList = decimal n := by
  rw [Nat.toList_repr]
  unfold decimal utf8s
  have key : ∀ l : List Char, (∀ ch ∈ l, ch.isDigit = true) → l.flatMap utf8 = l.map fun ch => ch.toNat.toUInt8 := by
    intro l hl
    induction l with
    | nil => rfl
    | cons ch l ih =>
      rw [List.flatMap_cons, ih fun x hx => hl x (by simp [hx]), utf8_digit (hl ch (by simp))]; rfl
  exact key _ fun ch hch => Nat.isDigit_of_mem_toDigits (b := 10) (by decide) (by decide) hch

theorem signed_decimal (v : Int) : SignedNumeral 10 (decimalText v) v := by
  unfold decimalText
  cases v with
  | ofNat n =>
    have : (toString (Int.ofNat n)).toList = (Nat.repr n).toList := rfl
    rw [this, utf8s_decimal]
    exact .none (numeral_decimal n)
  | negSucc n =>
    have : (toString (Int.negSucc n)) = "-" ++ Nat.repr (n + 1) := rfl
    rw [this, String.toList_append, utf8s_append, utf8s_decimal]
    exact .minus (numeral_decimal (n + 1))

end Takenoco
