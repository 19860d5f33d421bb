import Verif.Lemmas.NumberErrors
import Verif.Props.Transformers
import Verif.Props.IntLit
/-
C85: which errors `ParseInt` and `ParseUint` report. Together with C24 (accepted texts) this says what they do for every text and radix
from 2 to 36.
-/
namespace Takenoco
open Spec

/-- The error of `ParseInt`: out of range for integers outside int64, and already when the digits at the front exceed 64 bits, whatever
follows them; bad syntax for any other text. -/
theorem C85_parseInt {base : Nat} (h2 : 2 ≤ base) (hb : base ≤ 36) {asts : List Ast} {vs : List Bytes} (h : Texts asts vs) (c : Ctx) :
    (∀ v, SignedNumeral base vs.flatten v → v < -2 ^ 63 ∨ 2 ^ 63 ≤ v →
      parseIntRadix base c asts = .ok ([], some (.badNumber "parseIntImpl" vs.flatten .range))) ∧
    (∀ s u, s ∈ [[], b! "+", b! "-"] → vs.flatten = s ++ u → Overflows base u →
      parseIntRadix base c asts = .ok ([], some (.badNumber "parseIntImpl" vs.flatten .range))) ∧
    ((∀ v, ¬ SignedNumeral base vs.flatten v) → (∀ s u, s ∈ [[], b! "+", b! "-"] → vs.flatten = s ++ u → ¬ Overflows base u) →
      parseIntRadix base c asts = .ok ([], some (.badNumber "parseIntImpl" vs.flatten .syntax))) := by
  unfold parseIntRadix
  rw [afterConcat_texts h]
  refine ⟨fun v hv hr => ?_, fun s u hs hu ho => ?_, fun hv ho => ?_⟩
  · simp only [(parseInt_range h2 hb vs.flatten).2 (.inl ⟨v, hv, hr⟩)]
  · simp only [(parseInt_range h2 hb vs.flatten).2 (.inr ⟨s, u, hs, hu, ho⟩)]
  · cases hp : parseInt vs.flatten base with
    | ok v => exact absurd ((parseInt_iff h2 hb _ v).1 hp).1 (hv v)
    | error e =>
      cases e with
      | «syntax» => rfl
      | base => exact absurd hp (parseInt_kinds h2 hb _)
      | range =>
        rcases (parseInt_range h2 hb _).1 hp with ⟨v, h1, _⟩ | ⟨s, u, h1, h3, h4⟩
        · exact absurd h1 (hv v)
        · exact absurd h4 (ho s u h1 h3)

/-- The error of `ParseUint` for texts that are not empty. -/
theorem C85_parseUint {base : Nat} (h2 : 2 ≤ base) (hb : base ≤ 36) {asts : List Ast} {vs : List Bytes} (h : Texts asts vs)
    (hne : vs.flatten ≠ []) (c : Ctx) :
    (∀ s u, s ∈ [[], b! "+"] → vs.flatten = s ++ u → Overflows base u →
      parseUintRadix base c asts = .ok ([], some (.badNumber "parseUintImpl" vs.flatten .range))) ∧
    ((∀ n, ¬ PlusNumeral base vs.flatten n) → (∀ s u, s ∈ [[], b! "+"] → vs.flatten = s ++ u → ¬ Overflows base u) →
      parseUintRadix base c asts = .ok ([], some (.badNumber "parseUintImpl" vs.flatten .syntax))) := by
  unfold parseUintRadix
  rw [afterConcat_texts h]
  generalize vs.flatten = w at *
  cases w with
  | nil => exact absurd rfl hne
  | cons b bs =>
    simp only
    refine ⟨fun s u hs hu ho => ?_, fun hv ho => ?_⟩
    · have : (if b = 0x2b then bs else b :: bs) = u := by
        simp only [List.mem_cons, List.not_mem_nil, or_false] at hs
        rcases hs with rfl | rfl
        · rw [List.nil_append] at hu; subst hu; rw [if_neg (Overflows.head hb ho).1]
        · cases hu; rfl
      rw [this]
      simp only [(parseUint_range h2 hb u).2 ho]
    · have hno : ¬ Overflows base (if b = 0x2b then bs else b :: bs) := by
        by_cases hc : b = 0x2b
        · rw [if_pos hc]; subst hc; exact ho (b! "+") bs (by simp) rfl
        · rw [if_neg hc]; exact ho [] _ (by simp) rfl
      rw [(parseUint_syntax h2 hb _).2 ⟨hno, fun n hn => absurd ((plusNumeral_iff hb b bs n).2 hn) (hv n)⟩]

/-- Numerals that do not fit into uint64 are a case of the first part. -/
theorem C85_large {base n : Nat} {asts : List Ast} {vs : List Bytes} (h2 : 2 ≤ base) (hb : base ≤ 36) (h : Texts asts vs)
    (hn : PlusNumeral base vs.flatten n) (h64 : 2 ^ 64 ≤ n) (c : Ctx) :
    parseUintRadix base c asts = .ok ([], some (.badNumber "parseUintImpl" vs.flatten .range)) := by
  have hne : vs.flatten ≠ [] := by
    generalize vs.flatten = w at hn
    cases hn with
    | none h => exact (dig_of_numeral h).1
    | plus h => simp
  suffices key : ∃ s u, s ∈ [[], b! "+"] ∧ vs.flatten = s ++ u ∧ Overflows base u by
    obtain ⟨s, u, h1, h3, h4⟩ := key
    exact (C85_parseUint h2 hb h hne c).1 s u h1 h3 h4
  generalize vs.flatten = w at hn
  cases hn with
  | none h' => exact ⟨[], w, by simp, rfl, _, [], n, by simp, h', h64⟩
  | plus h' => exact ⟨b! "+", _, by simp, rfl, _, [], n, by simp, h', h64⟩

/-- A radix that is neither 0 nor in the range from 2 to 36 is an error of its own, unless there is nothing to read. -/
theorem C85_radix {base : Int} (h0 : base ≠ 0) (hb : ¬ (2 ≤ base ∧ base ≤ 36)) {asts : List Ast} {vs : List Bytes} (h : Texts asts vs) (c : Ctx) :
    parseIntRadix base c asts = .ok ([], some (.badNumber "parseIntImpl" vs.flatten
      (if vs.flatten ∈ [[], b! "+", b! "-"] then .syntax else .base))) ∧
    (vs.flatten ≠ [] → parseUintRadix base c asts = .ok ([], some (.badNumber "parseUintImpl" vs.flatten
      (if vs.flatten = b! "+" then .syntax else .base)))) := by
  unfold parseIntRadix parseUintRadix
  rw [afterConcat_texts h, afterConcat_texts h]
  generalize vs.flatten = w
  constructor
  · have hu : behindSign w = [] ↔ w ∈ [[], b! "+", b! "-"] := by
      cases w with
      | nil => simp [behindSign]
      | cons b bs =>
        simp only [behindSign]
        by_cases hc : b = 0x2b ∨ b = 0x2d
        · rw [if_pos hc]; rcases hc with rfl | rfl <;> simp
        · rw [if_neg hc]; simp only [not_or] at hc; simp [hc]
    rw [(parse_base h0 hb w).2]
    by_cases hw : behindSign w = []
    · rw [if_pos hw, if_pos (hu.1 hw)]
    · rw [if_neg hw, if_neg (fun h => hw (hu.2 h))]
  · intro hne
    cases w with
    | nil => exact absurd rfl hne
    | cons b bs =>
      simp only
      rw [(parse_base h0 hb _).1]
      by_cases hc : b = 0x2b
      · subst hc
        cases bs <;> simp
      · simp [hc]

/-! ### Cases -/

private def lit (s : Bytes) : Ast := { Ast.zero with ty := .string, val := .str s }
private theorem lit_texts (s : Bytes) : Texts [lit s] [s] := .cons rfl rfl .nil

private theorem numeral_value {s : Bytes} {n : Nat} (h : parseDigits false 10 0 s = .ok n) (hs : s ≠ []) : Numeral 10 s n :=
  numeral_iff.2 ⟨hs, ((parseDigits_iff (by decide) (by decide) s 0 n (by decide)).1 h).1⟩

private theorem max_numeral : Numeral 10 (b! "18446744073709551616") 18446744073709551616 :=
  .snoc (s := b! "1844674407370955161") (b := 0x36) (n := 1844674407370955161) (v := 6) (numeral_value rfl (by decide)) ⟨by decide, .inl (by decide)⟩

/-- 2^63 is out of range. -/
example (c : Ctx) : parseIntRadix 10 c [lit (b! "9223372036854775808")] =
    .ok ([], some (.badNumber "parseIntImpl" (b! "9223372036854775808") .range)) :=
  (C85_parseInt (base := 10) (by decide) (by decide) (lit_texts _) c).1 9223372036854775808
    (.none (numeral_value rfl (by decide))) (.inr (by decide))

/-- So is -2^64, although an `x` follows. -/
example (c : Ctx) : parseIntRadix 10 c [lit (b! "-18446744073709551616x")] =
    .ok ([], some (.badNumber "parseIntImpl" (b! "-18446744073709551616x") .range)) :=
  (C85_parseInt (base := 10) (by decide) (by decide) (lit_texts _) c).2.1 (b! "-") (b! "18446744073709551616x") (by decide) rfl
    ⟨b! "18446744073709551616", b! "x", _, rfl, max_numeral, by decide⟩

/-- The hypotheses of the third part hold for `9223372036854775808x`: bad syntax, although the digits do not fit into int64. -/
example (c : Ctx) : parseIntRadix 10 c [lit (b! "9223372036854775808x")] =
    .ok ([], some (.badNumber "parseIntImpl" (b! "9223372036854775808x") .syntax)) := by
  refine (C85_parseInt (base := 10) (by decide) (by decide) (lit_texts _) c).2.2 (fun v hv => ?_) (fun s u h1 h2 h3 => ?_)
  · obtain ⟨n, hn, _⟩ := (signed_behind (by decide) (by decide) v).1 hv
    have hp : parseDigits false 10 0 (b! "9223372036854775808x") = .error .syntax := by cbv
    by_cases h64 : n < 2 ^ 64
    · have := (parseDigits_iff (base := 10) (by decide) (by decide) _ 0 n (by decide)).2 ⟨(numeral_iff.1 hn).2, h64⟩
      exact absurd (hp.symm.trans this) (by simp)
    · have := (parseDigits_range (base := 10) (by decide) (b! "9223372036854775808x") 0 (by decide)).2 ⟨_, [], n, (List.append_nil _).symm, (numeral_iff.1 hn).2, by omega⟩
      exact absurd (hp.symm.trans this) (by simp)
  · have := (overflows_behind (base := 10) (by decide) _).2 ⟨s, u, h1, h2, h3⟩
    rw [← parseUint_range (by decide) (by decide)] at this
    have hp : parseUint (b! "9223372036854775808x") 10 = .error .syntax := by cbv
    exact absurd (hp.symm.trans this) (by simp)

/-- With a plus sign. -/
example (c : Ctx) : parseUintRadix 10 c [lit (b! "+18446744073709551616")] =
    .ok ([], some (.badNumber "parseUintImpl" (b! "+18446744073709551616") .range)) :=
  C85_large (base := 10) (vs := [b! "+18446744073709551616"]) (n := 18446744073709551616) (by decide) (by decide) (lit_texts _) (.plus (s := b! "18446744073709551616") max_numeral) (by decide) c

example (c : Ctx) : parseIntRadix 37 c [lit (b! "1")] = .ok ([], some (.badNumber "parseIntImpl" (b! "1") .base)) :=
  (C85_radix (by decide) (by decide) (lit_texts _) c).1
example (c : Ctx) : parseIntRadix (-1) c [lit (b! "-")] = .ok ([], some (.badNumber "parseIntImpl" (b! "-") .syntax)) :=
  (C85_radix (by decide) (by decide) (lit_texts _) c).1

end Takenoco
