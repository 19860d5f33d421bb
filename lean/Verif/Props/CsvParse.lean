import Verif.Lemmas.CsvRound
/-
C38: reading csv texts, and the round trip.
-/
namespace Takenoco
open Spec

theorem csv_accepted {s : Bytes} {t : List Char} {kept blank : List (List (List Char))} (hs : Reads s t) (h : TableText t (kept ++ blank))
    (hb : ∀ r ∈ blank, r = [[]]) (hk : kept.getLast? ≠ some [[]]) :
    ∃ N, ∀ n, N ≤ n → Csv.parse n s = .ok (.value (utf8Table kept)) := by
  refine csv_hits_run ((document_hits h hs).mono fun l ⟨a, h1, h2⟩ => ⟨a, h1, ?_⟩)
  rw [h2, utf8Table, List.map_append, dropTrailingBlank_eq]
  · rfl
  · intro r hr
    obtain ⟨x, hx, rfl⟩ := List.mem_map.1 hr
    rw [hb x hx]; exact .inr rfl
  · intro r hr
    rw [List.getLast?_map] at hr
    cases hl : kept.getLast? with
    | none => rw [hl] at hr; cases hr
    | some x =>
      rw [hl] at hr hk
      cases hr
      have hx := tableText_rows h x (List.mem_append_left _ (List.mem_of_getLast? hl))
      match x, hx, hk with
      | [c], _, hk =>
        simp only [List.map, reduceCtorEq, List.cons.injEq, and_true, false_or]
        intro hc
        rw [utf8s_eq_nil hc] at hk
        exact hk rfl
      | _ :: _ :: _, _, _ => simp

/-- `csv.Parse` of the text of a table returns the table without the blank rows at its end. -/
theorem C38_parse {t : List Char} {kept blank : List (List (List Char))} (h : TableText t (kept ++ blank))
    (hb : ∀ r ∈ blank, r = [[]]) (hk : kept.getLast? ≠ some [[]]) :
    ∃ N, ∀ n, N ≤ n → Csv.parse n (utf8s t) = .ok (.value (utf8Table kept)) :=
  csv_accepted (span_reads.1 (span_utf8s [] t)) h hb hk

/-- What `csv.ToCsv` writes, `csv.Parse` reads back: for tables without blank rows whose cells contain no double quote and,
unless they are quoted, no white space around them. -/
theorem C38_round_trip (rows : List (List (List Char))) (h : ∀ r ∈ rows, r ≠ [] ∧ r ≠ [[]] ∧ ∀ v ∈ r, Survives v) :
    ∃ N, ∀ n, N ≤ n → Csv.parse n (Csv.toCsv (utf8Table rows)) = .ok (.value (utf8Table rows)) := by
  by_cases hne : rows = []
  · subst hne
    refine C38_parse (t := []) (kept := []) (blank := [[[]]]) ?_ (by simp) (by simp)
    exact .last (.last (.plain (by simp) (fun a u _ h => by simp at h) ⟨⟨[], [], by simp, by simp, rfl⟩, by simp, by simp⟩))
  · obtain ⟨t, h1, h2, _⟩ := toCsv_text hne h
    rw [h1]
    refine C38_parse (blank := []) (by simpa using h2) (by simp) fun hl => ?_
    exact (h _ (List.mem_of_getLast? hl)).2.1 rfl

/-- A double quote in a cell does not survive. -/
theorem C38_quotes_lost : ∃ N, ∀ n, N ≤ n →
    Csv.parse n (Csv.toCsv [[b! "a\",b"]]) = .ok (.value [[b! "a,b"]]) := by
  refine C38_parse (t := "\"a\"\",b\"".toList) (kept := [["a,b".toList]]) (blank := []) ?_ (by simp) (by simp)
  refine .last (.last (.quoted (.last (a := []) (t := "a\"\",b".toList) (b := []) (by simp) ?_ (by simp))))
  exact .char (by decide) (.pair (.char (by decide) (.char (by decide) .nil)))

/-- White space around an unquoted cell does not survive. -/
theorem C38_blanks_lost : ∃ N, ∀ n, N ≤ n →
    Csv.parse n (Csv.toCsv [[b! " a", b! "b"]]) = .ok (.value [[b! "a", b! "b"]]) := by
  refine C38_parse (t := [' ', 'a', ',', 'b']) (kept := [[['a'], ['b']]]) (blank := []) ?_ (by simp) (by simp)
  refine .last (.more (t := [' ', 'a']) ?_ (.last ?_))
  · refine .plain (by decide) (fun a u ha he => ?_) ⟨⟨[' '], [], by decide, by decide, rfl⟩, by decide, by decide⟩
    have : '"' ∈ [' ', 'a'] := by rw [he]; simp
    exact absurd this (by decide)
  · refine .plain (by decide) (fun a u ha he => ?_) ⟨⟨[], [], by decide, by decide, rfl⟩, by decide, by decide⟩
    have : '"' ∈ ['b'] := by rw [he]; simp
    exact absurd this (by decide)

/-- A table with a quoted cell, a cell with blanks inside and an empty cell. -/
example : ∃ N, ∀ n, N ≤ n → Csv.parse n (Csv.toCsv (utf8Table [["a b".toList, " x\ny ".toList], [[], "é".toList]])) =
    .ok (.value (utf8Table [["a b".toList, " x\ny ".toList], [[], "é".toList]])) :=
  C38_round_trip _ (by
    intro r hr
    simp only [List.mem_cons, List.not_mem_nil, or_false] at hr
    rcases hr with rfl | rfl
    · refine ⟨by simp, by decide, fun v hv => ?_⟩
      simp only [List.mem_cons, List.not_mem_nil, or_false] at hv
      rcases hv with rfl | rfl
      · exact ⟨by decide, .inr ⟨⟨[], [], by simp, by simp, by simp⟩, by decide, by decide⟩⟩
      · exact ⟨by decide, .inl ⟨'\n', by decide, by decide⟩⟩
    · refine ⟨by simp, by simp, fun v hv => ?_⟩
      simp only [List.mem_cons, List.not_mem_nil, or_false] at hv
      rcases hv with rfl | rfl
      · exact ⟨by decide, .inr ⟨⟨[], [], by simp, by simp, by simp⟩, by decide, by decide⟩⟩
      · exact ⟨by decide, .inr ⟨⟨[], [], by simp, by simp, by simp⟩, by decide, by decide⟩⟩)

end Takenoco
