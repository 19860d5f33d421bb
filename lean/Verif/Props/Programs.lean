import Verif.Model.Examples.Programs
import Verif.Props.CsvExact
/-
C81: the two programs of the repository.
-/
namespace Takenoco
open Spec Programs

/-! ### main.go -/

private theorem digit_survives : ∀ v ∈ (["0", "1", "2", "3", "4", "5", "6", "7", "8", "9"].map String.toList), Survives v := by
  intro v hv
  simp only [List.map_cons, List.map_nil, List.mem_cons, List.not_mem_nil, or_false] at hv
  rcases hv with rfl | rfl | rfl | rfl | rfl | rfl | rfl | rfl | rfl | rfl <;>
    exact ⟨by decide, .inr ⟨⟨[], [], by simp, by simp, by simp⟩, by simp; decide, by simp; decide⟩⟩

/-- **C81**, main.go: it prints the table and its text and exits with 0. -/
theorem C81_main : ∃ N, ∀ n, N ≤ n → Programs.main n source = .ok
    ⟨b! "[[0 1 2 3 4 5 6 7 8 9] [0 1 2 3 4 5 6 7 8 9]]\n0,1,2,3,4,5,6,7,8,9\n0,1,2,3,4,5,6,7,8,9\n", 0⟩ := by
  let row := ["0", "1", "2", "3", "4", "5", "6", "7", "8", "9"].map String.toList
  obtain ⟨N, hN⟩ := C38_round_trip [row, row] (by
    intro r hr
    simp only [List.mem_cons, List.not_mem_nil, or_false, or_self] at hr
    subst hr
    exact ⟨by simp [row], by simp [row], digit_survives⟩)
  refine ⟨N, fun n hn => ?_⟩
  have h := hN n hn
  have e : Csv.toCsv (utf8Table [row, row]) = source := by decide
  rw [e] at h
  unfold Programs.main
  rw [h]
  simp only [Out.bind_ok]
  show Out.ok _ = _
  congr 1

/-- **C81**, main.go: with any other literal it prints the table that the text spells, and the text that `ToCsv` makes of it, or exits
with -1. -/
theorem C81_main_any (s : Bytes) : ∃ N,
    (∃ t kept blank, Reads s t ∧ TableText t (kept ++ blank) ∧ (∀ r ∈ blank, r = [[]]) ∧ kept.getLast? ≠ some [[]] ∧
      ∀ n, N ≤ n → Programs.main n s = .ok ⟨showTable (utf8Table kept) ++ b! "\n" ++ Csv.toCsv (utf8Table kept) ++ b! "\n", 0⟩) ∨
    ((¬ ∃ t rows, Reads s t ∧ TableText t rows) ∧ ∀ n, N ≤ n → Programs.main n s = .ok ⟨[], -1⟩) := by
  obtain ⟨N, ⟨t, kept, blank, h1, h2, h3, h4, h5⟩ | ⟨h0, o, p, h3⟩⟩ := C67_ends s
  · exact ⟨N, .inl ⟨t, kept, blank, h1, h2, h3, h4, fun n hn => by unfold Programs.main; rw [h5 n hn]; rfl⟩⟩
  · exact ⟨N, .inr ⟨h0, fun n hn => by unfold Programs.main; rw [h3 n hn]; rfl⟩⟩

/-! ### wasm/main.go: parseCsv -/

/-- The text that a call passes on: its first argument if that is a string, the empty text if there is none. -/
def PassedText (args : List Arg) (s : Bytes) : Prop := (args = [] ∧ s = []) ∨ ∃ rest, args = .str s :: rest

theorem passed_source {args : List Arg} {s : Bytes} (h : PassedText args s) : sourceOf args = s := by
  rcases h with ⟨rfl, rfl⟩ | ⟨rest, rfl⟩ <;> rfl

/-- **C81**, `parseCsv`: it returns the table that the text spells, without the blank rows at its end; if it spells none, no rows. -/
theorem C81_csv {args : List Arg} {s : Bytes} (h : PassedText args s) : ∃ N,
    (∃ t kept blank, Reads s t ∧ TableText t (kept ++ blank) ∧ (∀ r ∈ blank, r = [[]]) ∧ kept.getLast? ≠ some [[]] ∧
      ∀ n, N ≤ n → parseCsv n args = .ok (utf8Table kept)) ∨
    ((¬ ∃ t rows, Reads s t ∧ TableText t rows) ∧ ∀ n, N ≤ n → parseCsv n args = .ok []) := by
  obtain ⟨N, ⟨t, kept, blank, h1, h2, h3, h4, h5⟩ | ⟨h0, o, p, h3⟩⟩ := C67_ends s
  · exact ⟨N, .inl ⟨t, kept, blank, h1, h2, h3, h4, fun n hn => by unfold parseCsv; rw [passed_source h, h5 n hn]; rfl⟩⟩
  · exact ⟨N, .inr ⟨h0, fun n hn => by unfold parseCsv; rw [passed_source h, h3 n hn]; rfl⟩⟩

/-- **C81**: `parseCsvWithTinyGo` returns the same. -/
theorem C81_tinygo (n : Nat) (s : Bytes) : parseCsvWithTinyGo n s = parseCsv n [.str s] := rfl

/-- **C81**: whoever calls `parseCsv` cannot tell an error from an empty table. -/
theorem C81_csv_silent : ∃ s s', (∃ t rows, Reads s t ∧ TableText t rows) ∧ (¬ ∃ t rows, Reads s' t ∧ TableText t rows) ∧
    ∃ N, ∀ n, N ≤ n → parseCsv n [.str s] = parseCsv n [.str s'] := by
  have e1 : ∃ t rows, Reads [] t ∧ TableText t rows :=
    ⟨[], [[[]]], .nil, .last (.last (.plain (by simp) (fun a u _ h => by simp at h) ⟨⟨[], [], by simp, by simp, rfl⟩, by simp, by simp⟩))⟩
  have e2 : ∃ n o p, Csv.parse n (b! "\"") = .ok (.failed o p) := ⟨30, _, _, by cbv⟩
  have e3 : ∃ n, Csv.parse n [] = .ok (.value []) := by
    obtain ⟨N, hN⟩ := C38_round_trip [] (by simp)
    exact ⟨N, hN N (Nat.le_refl _)⟩
  refine ⟨[], b! "\"", e1, (C67_error _).1 e2, ?_⟩
  obtain ⟨n1, h1⟩ := e3
  obtain ⟨n2, o, p, h2⟩ := e2
  refine ⟨max n1 n2, fun n hn => ?_⟩
  unfold parseCsv
  rw [show sourceOf [.str []] = [] from rfl, show sourceOf [.str (b! "\"")] = b! "\"" from rfl, csv_stable h1 (by simp) (by omega : n1 ≤ n),
    csv_stable h2 (by simp) (by omega : n2 ≤ n)]
  rfl

/-! ### wasm/main.go: parseFormula -/

theorem roundNat_exact {n : Nat} (h : n ≤ 2 ^ 53) : roundNat n = n := by
  unfold roundNat
  by_cases hn : n = 2 ^ 53
  · subst hn; decide
  · have h53 : n < 2 ^ 53 := by omega
    have : n.log2 + 1 - 53 = 0 := by
      by_cases h0 : n = 0
      · subst h0; decide
      · have := (Nat.log2_lt h0).2 h53; omega
    simp [this, Nat.mod_one]

theorem toFloat_exact {x : Int64} (h : x.toInt.natAbs ≤ 2 ^ 53) : toFloat x = x.toInt := by
  unfold toFloat
  rw [roundNat_exact h]
  split <;> omega

theorem toFloat_zero : toFloat 0 = 0 := toFloat_exact (by decide)

/-- **C81**, `parseFormula`: if the text spells an expression, the call returns its value, provided that a JavaScript number can hold it;
it panics if a part of the text has no value; in all other cases it returns 0. -/
theorem C81_formula {args : List Arg} {s : Bytes} (h : PassedText args s) : ∃ N,
    (∃ e v, Spelled s e ∧ e.value = some v ∧ ∀ n, N ≤ n → parseFormula n args = .ok (toFloat v)) ∨
    ((¬ ∃ e, Spelled s e) ∧ ∀ n, N ≤ n → parseFormula n args = .ok 0) ∨
    (NoValueWithin s ∧ ∀ n, N ≤ n → parseFormula n args = .panic .divZero) := by
  obtain ⟨N, ⟨e, v, h1, h2, h3⟩ | ⟨h0, o, p, h3⟩ | ⟨h0, h3⟩⟩ := C64_ends s
  · exact ⟨N, .inl ⟨e, v, h1, h2, fun n hn => by unfold parseFormula; rw [passed_source h, h3 n hn]; rfl⟩⟩
  · exact ⟨N, .inr (.inl ⟨h0, fun n hn => by unfold parseFormula; rw [passed_source h, h3 n hn]; exact congrArg Out.ok toFloat_zero⟩)⟩
  · exact ⟨N, .inr (.inr ⟨h0, fun n hn => by unfold parseFormula; rw [passed_source h, h3 n hn]; rfl⟩)⟩

/-- **C81**: up to 2^53 the number that JavaScript gets is the value. -/
theorem C81_formula_exact {s : Bytes} {e : Expr} {v : Int64} (h : Spelled s e) (hv : e.value = some v) (hs : v.toInt.natAbs ≤ 2 ^ 53) :
    ∃ N, ∀ n, N ≤ n → parseFormula n [.str s] = .ok v.toInt := by
  obtain ⟨N, hN⟩ := (C64_value s v).2 ⟨e, h, hv⟩
  refine ⟨N, fun n hn => ?_⟩
  unfold parseFormula
  rw [show sourceOf [.str s] = s from rfl, formula_stable hN (by simp) hn, ← toFloat_exact hs]
  rfl

private theorem none' : Blanks [] := ⟨[], by simp, rfl⟩

private theorem spelled_lit {s : Bytes} {k : Nat} (h : DigitsText s k) (hk : k < 2 ^ 63) : Spelled s (.lit k) :=
  ⟨[], s, true, rfl, none', by simpa using Spells.product (.unary (.atom (.lit (p := false) (b := []) h hk none')))⟩

private theorem big (d : UInt8) (k : Nat) (h : DigitOf 10 d k) (hs : natRun (b! "900719925474099" ++ [d]) = b! "900719925474099" ++ [d])
    (hw : withoutUnderscores (b! "900719925474099" ++ [d]) = b! "900719925474099" ++ [d]) :
    DigitsText (b! "900719925474099" ++ [d]) (900719925474099 * 10 + k) := by
  refine ⟨⟨_, _, rfl, rfl⟩, hs, ?_⟩
  rw [hw]
  have d1 := (Numeral.digit (b := 0x39) (v := 9) (by unfold DigitOf; decide) : Numeral 10 [0x39] 9)
  have d2 := d1.snoc (b := 0x30) (v := 0) (by unfold DigitOf; decide)
  have d3 := d2.snoc (b := 0x30) (v := 0) (by unfold DigitOf; decide)
  have d4 := d3.snoc (b := 0x37) (v := 7) (by unfold DigitOf; decide)
  have d5 := d4.snoc (b := 0x31) (v := 1) (by unfold DigitOf; decide)
  have d6 := d5.snoc (b := 0x39) (v := 9) (by unfold DigitOf; decide)
  have d7 := d6.snoc (b := 0x39) (v := 9) (by unfold DigitOf; decide)
  have d8 := d7.snoc (b := 0x32) (v := 2) (by unfold DigitOf; decide)
  have d9 := d8.snoc (b := 0x35) (v := 5) (by unfold DigitOf; decide)
  have d10 := d9.snoc (b := 0x34) (v := 4) (by unfold DigitOf; decide)
  have d11 := d10.snoc (b := 0x37) (v := 7) (by unfold DigitOf; decide)
  have d12 := d11.snoc (b := 0x34) (v := 4) (by unfold DigitOf; decide)
  have d13 := d12.snoc (b := 0x30) (v := 0) (by unfold DigitOf; decide)
  have d14 := d13.snoc (b := 0x39) (v := 9) (by unfold DigitOf; decide)
  have d15 := d14.snoc (b := 0x39) (v := 9) (by unfold DigitOf; decide)
  exact d15.snoc h

/-- **C81**: beyond that it need not be: two texts with different values have the same result. -/
theorem C81_formula_rounds : ∃ s s' e e' v v', Spelled s e ∧ Spelled s' e' ∧ e.value = some v ∧ e'.value = some v' ∧ v ≠ v' ∧
    ∃ N, ∀ n, N ≤ n → parseFormula n [.str s] = parseFormula n [.str s'] := by
  have h1 := spelled_lit (big 0x32 2 (by unfold DigitOf; decide) rfl rfl) (by decide)
  have h2 := spelled_lit (big 0x33 3 (by unfold DigitOf; decide) rfl rfl) (by decide)
  refine ⟨_, _, _, _, _, _, h1, h2, rfl, rfl, by decide, ?_⟩
  obtain ⟨n1, k1⟩ := (C64_value _ _).2 ⟨_, h1, rfl⟩
  obtain ⟨n2, k2⟩ := (C64_value _ _).2 ⟨_, h2, rfl⟩
  refine ⟨max n1 n2, fun n hn => ?_⟩
  unfold parseFormula
  rw [show ∀ s, sourceOf [.str s] = s from fun _ => rfl, show ∀ s, sourceOf [.str s] = s from fun _ => rfl,
    formula_stable k1 (by simp) (by omega : n1 ≤ n), formula_stable k2 (by simp) (by omega : n2 ≤ n)]
  show Out.ok _ = Out.ok _
  congr 1

/-- **C81**: and an error looks like the value 0. -/
theorem C81_formula_silent : ∃ s s', (∃ e, Spelled s e ∧ e.value = some 0) ∧ (¬ ∃ e, Spelled s' e) ∧
    ∃ N, ∀ n, N ≤ n → parseFormula n [.str s] = .ok 0 ∧ parseFormula n [.str s'] = .ok 0 := by
  have h1 : Spelled (b! "0") (.lit 0) := spelled_lit ⟨⟨_, _, rfl, rfl⟩, rfl, Numeral.digit (by unfold DigitOf; decide)⟩ (by decide)
  obtain ⟨p, h2⟩ : ∃ p, Formula.parse 40 [] = .ok (.failed (some (.msg "Value required")) p) := ⟨_, by cbv⟩
  have h3 := C64_error _ _ _ _ h2
  refine ⟨b! "0", [], ⟨_, h1, rfl⟩, h3, ?_⟩
  obtain ⟨N, hN⟩ := C81_formula_exact h1 rfl (by decide)
  refine ⟨max N 40, fun n hn => ⟨hN n (by omega), ?_⟩⟩
  unfold parseFormula
  rw [show sourceOf [.str []] = [] from rfl, formula_stable h2 (by simp) (by omega : 40 ≤ n)]
  exact congrArg Out.ok toFloat_zero

end Takenoco
