import Verif.Lemmas.CsvParts
/-
C111: the tables of csv texts put one below the other and side by side.
-/
namespace Takenoco
open Spec

/-- **C111.** Two texts with line breaks between them: the rows of the first, then the rows of the second. The first ends with neither white space nor a
quote, the second does not start with a line break. -/
theorem C111_below {n k : Nat} {t u bs : List Char} {A B : List (List Bytes)} (ht : Csv.parse n (utf8s t) = .ok (.value A))
    (hu : Csv.parse k (utf8s u) = .ok (.value B)) {ch : Char} (hl : t.getLast? = some ch) (hb : ¬ Blank ch) (hq : ch ≠ '"')
    (hbs : bs ≠ []) (hbs' : ∀ ch ∈ bs, LineEnd ch) (hstart : ∀ ch, u.head? = some ch → ¬ LineEnd ch) :
    ∃ N, ∀ m, N ≤ m → Csv.parse m (utf8s (t ++ bs ++ u)) = .ok (.value (A ++ B)) := by
  obtain ⟨rows, h1, h2, rfl⟩ := csv_rows ht hl hb hq
  obtain ⟨u', kept, blank, h3, h4, h5, h6, rfl⟩ := (C67_value _ B).1 ⟨k, hu⟩
  obtain rfl := reads_unique h3 (span_reads.1 (span_utf8s [] u))
  have h7 := table_below h1 hl hb hbs hbs' hstart h4
  rw [← List.append_assoc] at h7
  have h8 := C38_parse h7 h5 (by
    cases hk : kept.getLast? with
    | none => rw [List.getLast?_eq_none_iff.1 hk, List.append_nil]; exact h2
    | some r =>
      rw [getLast?_end (by rintro rfl; cases hk)]
      exact h6)
  simpa [utf8Table] using h8

/-- **C111.** Line breaks at the end of a text do not matter. -/
theorem C111_end {n : Nat} {t bs : List Char} {A : List (List Bytes)} (ht : Csv.parse n (utf8s t) = .ok (.value A)) {ch : Char} (hl : t.getLast? = some ch)
    (hb : ¬ Blank ch) (hq : ch ≠ '"') (hbs : bs ≠ []) (hbs' : ∀ ch ∈ bs, LineEnd ch) :
    ∃ N, ∀ m, N ≤ m → Csv.parse m (utf8s (t ++ bs)) = .ok (.value A) := by
  have h := C111_below (k := 99) (u := []) (B := []) ht (by cbv) hl hb hq hbs hbs' (by simp)
  simpa using h

/-- **C111.** Two rows with a comma between them are one row with the cells of both. -/
theorem C111_beside {n k : Nat} {t u : List Char} {r r' : List Bytes} (ht : Csv.parse n (utf8s t) = .ok (.value [r]))
    (hu : Csv.parse k (utf8s u) = .ok (.value [r'])) {ch : Char} (hl : t.getLast? = some ch) (hb : ¬ Blank ch) (hq : ch ≠ '"') :
    ∃ N, ∀ m, N ≤ m → Csv.parse m (utf8s (t ++ ',' :: u)) = .ok (.value [r ++ r']) := by
  obtain ⟨rows, h1, h2, h3⟩ := csv_rows ht hl hb hq
  obtain ⟨u', kept, blank, h4, h5, h6, h7, h8⟩ := (C67_value _ _).1 ⟨k, hu⟩
  obtain rfl := reads_unique h4 (span_reads.1 (span_utf8s [] u))
  unfold utf8Table at h3 h8
  obtain ⟨x, rfl, rfl⟩ : ∃ x, rows = [x] ∧ r = x.map utf8s := by
    cases rows with
    | nil => cases h3
    | cons x l => cases l with
      | nil => simp only [List.map_cons, List.map_nil, List.cons.injEq, and_true] at h3; exact ⟨x, rfl, h3⟩
      | cons y l => simp at h3
  obtain ⟨y, rfl, rfl⟩ : ∃ y, kept = [y] ∧ r' = y.map utf8s := by
    cases kept with
    | nil => cases h8
    | cons x l => cases l with
      | nil => simp only [List.map_cons, List.map_nil, List.cons.injEq, and_true] at h8; exact ⟨x, rfl, h8⟩
      | cons y l => simp at h8
  have hne := rowText_ne (table_one h1)
  have h9 := C38_parse (kept := [x ++ y]) (table_beside (table_one h1) h5) h6 (by
    simp only [List.getLast?_singleton, ne_eq, Option.some.injEq] at h2 h7 ⊢
    intro hxy
    cases x with
    | nil => exact hne rfl
    | cons a x =>
      simp only [List.cons_append, List.cons.injEq, List.append_eq_nil_iff] at hxy
      obtain ⟨rfl, rfl, rfl⟩ := hxy
      exact h2 rfl)
  simpa [utf8Table] using h9

/-! ### Examples -/

/-- Two tables, one below the other. -/
example : ∃ N, ∀ m, N ≤ m → Csv.parse m (utf8s "a,b\n\nc".toList) = .ok (.value [[b! "a", b! "b"], [b! "c"]]) :=
  C111_below (n := 99) (k := 99) (t := "a,b".toList) (u := "c".toList) (bs := "\n\n".toList) (A := [[b! "a", b! "b"]]) (B := [[b! "c"]]) (by cbv) (by cbv)
    (ch := 'b') (by decide) (by unfold Blank; decide) (by decide) (by decide) (by unfold LineEnd; decide) (by intro ch h; simp at h; subst h; unfold LineEnd; decide)

/-- The condition on the end of the first text is needed: below an empty text, which has no rows, a table gets one more row. -/
example : Csv.parse 99 (utf8s []) = .ok (.value []) ∧ Csv.parse 99 (utf8s "c".toList) = .ok (.value [[b! "c"]]) ∧
    Csv.parse 99 (utf8s "\nc".toList) = .ok (.value [[b! ""], [b! "c"]]) := ⟨by cbv, by cbv, by cbv⟩

/-- So is the one on the start of the second: `\nc` has two rows, but one of them gets lost. -/
example : Csv.parse 99 (utf8s "a".toList) = .ok (.value [[b! "a"]]) ∧ Csv.parse 99 (utf8s "a\n\nc".toList) = .ok (.value [[b! "a"], [b! "c"]]) := ⟨by cbv, by cbv⟩

/-- Line breaks at the end. -/
example : ∃ N, ∀ m, N ≤ m → Csv.parse m (utf8s "a\r\n".toList) = .ok (.value [[b! "a"]]) :=
  C111_end (n := 99) (t := "a".toList) (bs := "\r\n".toList) (by cbv) (ch := 'a') (by decide) (by unfold Blank; decide) (by decide) (by decide) (by unfold LineEnd; decide)

/-- Two rows side by side. -/
example : ∃ N, ∀ m, N ≤ m → Csv.parse m (utf8s "a,b,c".toList) = .ok (.value [[b! "a", b! "b", b! "c"]]) :=
  C111_beside (n := 99) (k := 99) (t := "a,b".toList) (u := "c".toList) (r := [b! "a", b! "b"]) (r' := [b! "c"]) (by cbv) (by cbv)
    (ch := 'b') (by decide) (by unfold Blank; decide) (by decide)

#print axioms C111_below
#print axioms C111_end
#print axioms C111_beside

end Takenoco
