import Verif.Lemmas.IntLit
import Verif.Props.Transformers
/-
C70: radix 0 reads the integer literals of the Go language; every radix other than 0 and 2 to 36 fails.
-/
namespace Takenoco
open Spec

/-- `ParseIntRadix(0)` yields the value of a signed literal that fits into 64 bits, and fails on everything else. -/
theorem C70_parseInt {asts : List Ast} {vs : List Bytes} (h : Texts asts vs) (c : Ctx) :
    (∀ v, SignedIntLit vs.flatten v → -2 ^ 63 ≤ v → v < 2 ^ 63 →
      ∃ i : Int64, i.toInt = v ∧ parseIntRadix 0 c asts = .ok ([summary asts .int (.int i)], none)) ∧
    ((∀ v, SignedIntLit vs.flatten v → v < -2 ^ 63 ∨ 2 ^ 63 ≤ v) → ∃ e, parseIntRadix 0 c asts = .ok ([], some e)) := by
  unfold parseIntRadix
  rw [afterConcat_texts h]
  constructor
  · intro v hv hlo hhi
    refine ⟨Int64.ofInt v, Int64.toInt_ofInt_of_le hlo hhi, ?_⟩
    simp only [(parseInt_zero vs.flatten v).2 ⟨hv, hlo, hhi⟩]
    cases asts <;> rfl
  · intro hn
    cases hp : parseInt vs.flatten 0 with
    | error e => exact ⟨_, rfl⟩
    | ok v =>
      have := (parseInt_zero vs.flatten v).1 hp
      have := hn v this.1
      omega

theorem plusIntLit_iff (c : UInt8) (cs : Bytes) (n : Nat) : PlusIntLit (c :: cs) n ↔ IntLit (if c = 0x2b then cs else c :: cs) n := by
  constructor
  · intro h
    generalize hs : c :: cs = s at h
    cases h with
    | none h => subst hs; rw [if_neg h.head.1]; exact h
    | plus h => simp at hs; obtain ⟨rfl, rfl⟩ := hs; exact h
  · intro h
    by_cases hc : c = 0x2b
    · rw [if_pos hc] at h; subst hc; exact .plus h
    · rw [if_neg hc] at h; exact .none h

/-- `ParseUintRadix(0)` yields the value of a literal, possibly with a plus sign, that fits into 64 bits, and fails on everything else
except the empty text, on which it panics (`C24_parseUint_panics`). -/
theorem C70_parseUint {asts : List Ast} {vs : List Bytes} (h : Texts asts vs) (c : Ctx) :
    (∀ n, PlusIntLit vs.flatten n → n < 2 ^ 64 →
      ∃ u : UInt64, u.toNat = n ∧ parseUintRadix 0 c asts = .ok ([summary asts .uint (.uint u)], none)) ∧
    (vs.flatten ≠ [] → (∀ n, PlusIntLit vs.flatten n → 2 ^ 64 ≤ n) → ∃ e, parseUintRadix 0 c asts = .ok ([], some e)) := by
  unfold parseUintRadix
  rw [afterConcat_texts h]
  generalize vs.flatten = s
  cases s with
  | nil =>
    refine ⟨fun n hn => ?_, fun h => absurd rfl h⟩
    generalize hs : ([] : Bytes) = s at hn
    cases hn with
    | none h => exact absurd hs.symm (intLit_ne h)
    | plus h => simp at hs
  | cons b bs =>
    simp only
    constructor
    · intro n hn hlt
      refine ⟨UInt64.ofNat n, UInt64.toNat_ofNat_of_lt' hlt, ?_⟩
      simp only [(parseUint_zero _ n).2 ⟨(plusIntLit_iff b bs n).1 hn, hlt⟩]
      cases asts <;> rfl
    · intro _ hn
      cases hp : parseUint (if b = 0x2b then bs else b :: bs) 0 with
      | error e => exact ⟨_, rfl⟩
      | ok n =>
        have h1 := (parseUint_zero _ n).1 hp
        have := hn n ((plusIntLit_iff b bs n).2 h1.1)
        omega

/-- A literal has one value. -/
theorem C70_unambiguous {s : Bytes} {n m : Nat} (h : IntLit s n) (h' : IntLit s m) : n = m := h.unique h'

/-- Any other radix fails, whatever the text. -/
theorem C70_other_radix {base : Int} (h0 : base ≠ 0) (hb : ¬ (2 ≤ base ∧ base ≤ 36)) {asts : List Ast} {vs : List Bytes} (h : Texts asts vs) (c : Ctx) :
    (∃ e, parseIntRadix base c asts = .ok ([], some e)) ∧ (vs.flatten ≠ [] → ∃ e, parseUintRadix base c asts = .ok ([], some e)) := by
  unfold parseIntRadix parseUintRadix
  rw [afterConcat_texts h, afterConcat_texts h]
  constructor
  · obtain ⟨e, he⟩ := parseInt_other h0 hb vs.flatten
    rw [he]; exact ⟨_, rfl⟩
  · intro hne
    cases hs : vs.flatten with
    | nil => exact absurd hs hne
    | cons b bs =>
      obtain ⟨e, he⟩ := parseUint_other h0 hb (if b = 0x2b then bs else b :: bs)
      simp only [he]; exact ⟨_, rfl⟩

/-- `-0x_1F` is a literal with the value -31, `0_7` one with the value 7. -/
example : SignedIntLit (b! "-0x_1F") (-31) :=
  .minus (.basedUnder .x (.snoc (.digit (v := 1) ⟨by decide, .inl (by decide)⟩) (v := 15) ⟨by decide, .inr (by decide)⟩))
example : IntLit (b! "0_7") 7 := .basedUnder .octal (.digit ⟨by decide, .inl (by decide)⟩)
private def lit (s : Bytes) : Ast := { Ast.zero with ty := .string, val := .str s }
private theorem lit_texts (s : Bytes) : Texts [lit s] [s] := .cons rfl rfl .nil
example (c : Ctx) : ∃ i : Int64, i.toInt = -31 ∧ parseIntRadix 0 c [lit (b! "-0x_1F")] = .ok ([summary [lit (b! "-0x_1F")] .int (.int i)], none) :=
  (C70_parseInt (lit_texts _) c).1 (-31)
    (.minus (.basedUnder .x (.snoc (.digit (v := 1) ⟨by decide, .inl (by decide)⟩) (v := 15) ⟨by decide, .inr (by decide)⟩))) (by decide) (by decide)
/-- A digit of another base, two underscores, an underscore at the end, a prefix alone: no literals. -/
example : ∀ s ∈ [b! "08", b! "0b2", b! "1__0", b! "1_", b! "_1", b! "0x", b! "0x_", b! "1f", b! ""], ∀ n, ¬ (IntLit s n ∧ n < 2 ^ 64) := by
  intro s hs n h
  have h' := (parseUint_zero s n).2 h
  simp only [List.mem_cons, List.not_mem_nil, or_false] at hs
  rcases hs with rfl | rfl | rfl | rfl | rfl | rfl | rfl | rfl | rfl <;> · simp [parseUint, detectBase, parseDigits, digitVal, underscoreOK, underscoreLoop] at h'
example (c : Ctx) : (∃ e, parseIntRadix 37 c [lit (b! "1")] = .ok ([], some e)) := (C70_other_radix (by decide) (by decide) (lit_texts _) c).1

end Takenoco
