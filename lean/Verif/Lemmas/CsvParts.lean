import Verif.Props.CsvExact
/-
Texts of tables put together from texts of tables.
-/
namespace Takenoco
open Spec

theorem lineEnd_white {ch : Char} (h : LineEnd ch) : Blank ch := by
  unfold LineEnd at h; unfold Blank
  simp only [List.mem_cons, List.not_mem_nil, or_false] at h ⊢
  grind

theorem lineBlank_white {ch : Char} (h : LineBlank ch) : Blank ch := by
  unfold LineBlank at h; unfold Blank
  simp only [List.mem_cons, List.not_mem_nil, or_false] at h ⊢
  grind

theorem getLast?_end {α : Type} {a b : List α} (hb : b ≠ []) : (a ++ b).getLast? = b.getLast? := by
  rw [List.getLast?_append]
  cases h : b.getLast? with
  | none => exact absurd (List.getLast?_eq_none_iff.1 h) hb
  | some x => rfl

theorem mem_of_last {α : Type} {l : List α} {x : α} (h : l.getLast? = some x) : x ∈ l := List.mem_of_getLast? h

/-- A quoted cell ends with a quote or a blank. -/
theorem quotedCell_end {t v : List Char} (h : QuotedCell t v) {ch : Char} (hl : t.getLast? = some ch) : Blank ch ∨ ch = '"' := by
  induction h with
  | @last a t v b _ _ hb =>
    rw [List.append_assoc, getLast?_end (by simp), List.cons_append, ← List.singleton_append, getLast?_end (by simp), getLast?_end (by simp)] at hl
    cases b with
    | nil => simp at hl; exact .inr hl.symm
    | cons x b =>
      rw [← List.singleton_append, getLast?_end (by simp)] at hl
      exact .inl (lineBlank_white (hb _ (mem_of_last hl)))
  | @more a t v b u w _ _ _ _ _ ih =>
    apply ih
    rw [getLast?_end (by simp), ← List.singleton_append, getLast?_end (by simp), getLast?_end (by simp)] at hl
    exact hl

/-- A text that ends with neither white space nor a quote has no blank row at the end. -/
theorem table_last {t : List Char} {rows : List (List (List Char))} (h : TableText t rows) {ch : Char} (hl : t.getLast? = some ch) (hb : ¬ Blank ch) (hq : ch ≠ '"') :
    rows.getLast? ≠ some [[]] := by
  induction h with
  | last h =>
    intro hr
    simp only [List.getLast?_singleton, Option.some.injEq] at hr
    subst hr
    cases h with
    | last hc =>
      cases hc with
      | plain _ _ h3 =>
        obtain ⟨⟨a, b, h4, h5, rfl⟩, _⟩ := h3
        have := mem_of_last hl
        simp only [List.append_nil, List.mem_append] at this
        exact this.elim (fun h => hb (h4 _ h)) (fun h => hb (h5 _ h))
      | quoted hc => exact (quotedCell_end hc hl).elim hb hq
    | more _ h => exact rowText_ne h rfl
  | @more t bs u r rs _ h2 h3 _ h5 ih =>
    have hu : u ≠ [] := by
      rintro rfl
      rw [List.append_nil, getLast?_end h2] at hl
      exact hb (lineEnd_white (h3 _ (mem_of_last hl)))
    have hrs : rs ≠ [] := by cases h5 <;> simp
    rw [getLast?_end hu] at hl
    rw [← List.singleton_append, getLast?_end hrs]
    exact ih hl

/-- One table below another. -/
theorem table_below {t : List Char} {rows : List (List (List Char))} (h : TableText t rows) {ch : Char} (hl : t.getLast? = some ch) (hb : ¬ Blank ch)
    {bs u : List Char} {rows' : List (List (List Char))} (h2 : bs ≠ []) (h3 : ∀ ch ∈ bs, LineEnd ch) (h4 : ∀ ch, u.head? = some ch → ¬ LineEnd ch)
    (h5 : TableText u rows') : TableText (t ++ bs ++ u) (rows ++ rows') := by
  induction h with
  | last h => exact .more h h2 h3 h4 h5
  | @more t bs' u' r rs g1 g2 g3 g4 g5 ih =>
    have hu : u' ≠ [] := by
      rintro rfl
      rw [List.append_nil, getLast?_end g2] at hl
      exact hb (lineEnd_white (g3 _ (mem_of_last hl)))
    rw [getLast?_end hu] at hl
    have := TableText.more g1 g2 g3 (u := u' ++ bs ++ u) (by
      intro x hx
      cases u' with
      | nil => exact absurd rfl hu
      | cons y u' => exact g4 x hx) (ih hl)
    simpa using this

theorem row_beside {t u : List Char} {r r' : List (List Char)} (h : RowText t r) (h' : RowText u r') : RowText (t ++ ',' :: u) (r ++ r') := by
  induction h with
  | last h => exact .more h h'
  | more h _ ih =>
    have := RowText.more h ih
    simpa using this

/-- A row before the first row of a table. -/
theorem table_beside {t u : List Char} {r r' : List (List Char)} {rows : List (List (List Char))} (h : RowText t r) (h' : TableText u (r' :: rows)) :
    TableText (t ++ ',' :: u) ((r ++ r') :: rows) := by
  cases h' with
  | last h' => exact .last (row_beside h h')
  | more g1 g2 g3 g4 g5 =>
    have := TableText.more (row_beside h g1) g2 g3 g4 g5
    simpa using this

theorem table_one {t : List Char} {r : List (List Char)} (h : TableText t [r]) : RowText t r := by
  cases h with
  | last h => exact h
  | more _ _ _ _ h => cases h

/-- The table that `csv.Parse` returns for a text that ends with neither white space nor a quote has all rows of the text. -/
theorem csv_rows {n : Nat} {t : List Char} {A : List (List Bytes)} (h : Csv.parse n (utf8s t) = .ok (.value A)) {ch : Char} (hl : t.getLast? = some ch)
    (hb : ¬ Blank ch) (hq : ch ≠ '"') : ∃ rows, TableText t rows ∧ rows.getLast? ≠ some [[]] ∧ A = utf8Table rows := by
  obtain ⟨t', kept, blank, h1, h2, h3, h4, rfl⟩ := (C67_value _ A).1 ⟨n, h⟩
  obtain rfl := reads_unique h1 (span_reads.1 (span_utf8s [] t))
  have h5 := table_last h2 hl hb hq
  have h6 : blank = [] := by
    cases hx : blank.getLast? with
    | none => exact List.getLast?_eq_none_iff.1 hx
    | some r =>
      have hne : blank ≠ [] := by rintro rfl; cases hx
      rw [getLast?_end hne, hx, h3 r (mem_of_last hx)] at h5
      exact absurd rfl h5
  subst h6
  rw [List.append_nil] at h2
  exact ⟨kept, h2, h4, rfl⟩

end Takenoco
