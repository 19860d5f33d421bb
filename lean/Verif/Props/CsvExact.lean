import Verif.Lemmas.CsvExact
import Verif.Lemmas.CsvTotal
import Verif.Props.CsvParse
import Verif.Props.FormulaExact
/-
C67: exactly which texts the csv example accepts, and with which tables.
-/
namespace Takenoco
open Spec

theorem csv_parse_of {n : Nat} {s : Bytes} {r : Out PRes} (h : run noEnv n Csv.document (newStrCtx s) = r) :
    Csv.parse n s = r.bind (Csv.finish s) := by
  unfold Csv.parse; rw [h]; rfl

theorem csv_stable {n m : Nat} {s : Bytes} {r : Out (Formula.ParseRes (List (List Bytes)))} (h : Csv.parse n s = r) (hr : r ≠ .timeout) (hm : n ≤ m) :
    Csv.parse m s = r := by
  have : run noEnv n Csv.document (newStrCtx s) ≠ .timeout := fun ht => by
    rw [csv_parse_of ht] at h
    exact hr h.symm
  rw [← h, csv_parse_of rfl, csv_parse_of rfl, run_stable hm this]

theorem blank_rows (rows : List (List (List Char))) :
    ∃ kept blank, rows = kept ++ blank ∧ (∀ r ∈ blank, r = [[]]) ∧ kept.getLast? ≠ some [[]] := by
  induction rows with
  | nil => exact ⟨[], [], rfl, by simp, by simp⟩
  | cons r rows ih =>
    obtain ⟨kept, blank, rfl, h1, h2⟩ := ih
    by_cases hk : kept = []
    · subst hk
      by_cases hr : r = [[]]
      · exact ⟨[], r :: blank, rfl, by simpa [hr] using h1, by simp⟩
      · exact ⟨[r], blank, rfl, h1, by simpa using hr⟩
    · refine ⟨r :: kept, blank, rfl, h1, ?_⟩
      rw [List.getLast?_cons]
      cases hl : kept.getLast? with
      | none => exact absurd (List.getLast?_eq_none_iff.1 hl) hk
      | some x => rw [hl] at h2; simpa using h2

/-- `csv.Parse` returns the table that the text spells, without the blank rows at its end, or an error if it spells none. -/
theorem C67_ends (s : Bytes) : ∃ N,
    (∃ t kept blank, Reads s t ∧ TableText t (kept ++ blank) ∧ (∀ r ∈ blank, r = [[]]) ∧ kept.getLast? ≠ some [[]] ∧
      ∀ n, N ≤ n → Csv.parse n s = .ok (.value (utf8Table kept))) ∨
    ((¬ ∃ t rows, Reads s t ∧ TableText t rows) ∧ ∃ o p, ∀ n, N ≤ n → Csv.parse n s = .ok (.failed o p)) := by
  by_cases h : ∃ t rows, Reads s t ∧ TableText t rows
  · obtain ⟨t, rows, h1, h2⟩ := h
    obtain ⟨kept, blank, rfl, h3, h4⟩ := blank_rows rows
    obtain ⟨N, hN⟩ := csv_accepted h1 h2 h3 h4
    exact ⟨N, .inl ⟨t, kept, blank, h1, h2, h3, h4, hN⟩⟩
  · have hp := document_takes (env := noEnv) (X := fun _ _ => False) (n := s.length) (fun w s x h => h)
    obtain ⟨N, h'⟩ := admits_run s (document_total (env := noEnv) (X := fun _ => False) (n := s.length)) hp trans_stays
    refine ⟨N, .inr ⟨h, ?_⟩⟩
    rcases h' with ⟨w, rest, l, o, rfl, ⟨rfl, t, rows, a, h1, h2, _⟩, _, _, _⟩ | ⟨o, e, h1, h2, h3⟩ | ⟨x, hx, h2⟩
    · exact absurd ⟨t, rows, by simpa using h1, h2⟩ h
    · obtain ⟨r, hr⟩ := getLineAndCol_ok (t := 4) h2 (by omega)
      refine ⟨e, r, fun n hn => ?_⟩
      rw [csv_parse_of (h3 n hn)]
      cases e with
      | some e => simp [Out.bind, Csv.finish, hr]
      | none => simp [Out.bind, Csv.finish, hr, h1 rfl]
    · exact hx.elim

/-- `csv.Parse` returns a table exactly if the text spells it, perhaps with blank rows after it. -/
theorem C67_value (s : Bytes) (T : List (List Bytes)) : (∃ n, Csv.parse n s = .ok (.value T)) ↔
    ∃ t kept blank, Reads s t ∧ TableText t (kept ++ blank) ∧ (∀ r ∈ blank, r = [[]]) ∧ kept.getLast? ≠ some [[]] ∧ T = utf8Table kept := by
  constructor
  · rintro ⟨n, h⟩
    have h : ∃ N, ∀ n, N ≤ n → Csv.parse n s = .ok (.value T) := ⟨n, fun m hm => csv_stable h (by simp) hm⟩
    obtain ⟨N, ⟨t, kept, blank, h1, h2, h3, h4, h5⟩ | ⟨_, o, p, h3⟩⟩ := C67_ends s
    · have := eventually_eq h ⟨N, h5⟩
      cases this
      exact ⟨t, kept, blank, h1, h2, h3, h4, rfl⟩
    · have := eventually_eq h ⟨N, h3⟩; cases this
  · rintro ⟨t, kept, blank, h1, h2, h3, h4, rfl⟩
    obtain ⟨N, hN⟩ := csv_accepted h1 h2 h3 h4
    exact ⟨N, hN N (Nat.le_refl _)⟩

/-- `csv.Parse` returns an error exactly if the text spells no table. -/
theorem C67_error (s : Bytes) : (∃ n o p, Csv.parse n s = .ok (.failed o p)) ↔ ¬ ∃ t rows, Reads s t ∧ TableText t rows := by
  constructor
  · rintro ⟨n, o, p, h⟩
    have h : ∃ N, ∀ n, N ≤ n → Csv.parse n s = .ok (.failed o p) := ⟨n, fun m hm => csv_stable h (by simp) hm⟩
    obtain ⟨N, ⟨t, kept, blank, h1, h2, h3, h4, h5⟩ | ⟨h0, _⟩⟩ := C67_ends s
    · have := eventually_eq h ⟨N, h5⟩; cases this
    · exact h0
  · intro h
    obtain ⟨N, ⟨t, kept, blank, h1, h2, _⟩ | ⟨_, o, p, h3⟩⟩ := C67_ends s
    · exact absurd ⟨t, _, h1, h2⟩ h
    · exact ⟨N, o, p, h3 N (Nat.le_refl _)⟩

/-- All tables that a text spells are the same up to blank rows at the end. -/
theorem C67_unambiguous {t : List Char} {kept kept' blank blank' : List (List (List Char))} (h : TableText t (kept ++ blank))
    (h' : TableText t (kept' ++ blank')) (hb : ∀ r ∈ blank, r = [[]]) (hb' : ∀ r ∈ blank', r = [[]])
    (hk : kept.getLast? ≠ some [[]]) (hk' : kept'.getLast? ≠ some [[]]) : kept = kept' := by
  have := eventually_eq (C38_parse h hb hk) (C38_parse h' hb' hk')
  injection this with this
  injection this with this
  refine (List.map_inj_right fun a b hab => (List.map_inj_right fun x y hxy => ?_).1 hab).1 this
  exact reads_unique (span_reads.1 (span_utf8s [] x)) (hxy ▸ span_reads.1 (span_utf8s [] y))

/-- A byte that begins no character is read as U+FFFD, and a quoted part may follow another one after a blank. -/
example : ∃ n, Csv.parse n [0x22, 0x61, 0x22, 0x20, 0x22, 0x62, 0x22, 0x2c, 0x80] = .ok (.value [[[0x61, 0x62], [0xef, 0xbf, 0xbd]]]) := by
  refine (C67_value _ _).2 ⟨['"', 'a', '"', ' ', '"', 'b', '"', ',', '�'], [[['a', 'b'], ['�']]], [], ?_, ?_, by simp, by simp, by decide⟩
  · have h : NextChar [0x80] '�' 1 := .bad (by simp) fun ch rest he => by
      obtain ⟨b, bs, h1, h2, _⟩ := utf8_shape ch
      rw [h1] at he
      injection he with he
      subst he
      exact absurd h2 (by decide)
    exact .cons (.char '"' _) (.cons (.char 'a' _) (.cons (.char '"' _) (.cons (.char ' ' _) (.cons (.char '"' _) (.cons (.char 'b' _)
      (.cons (.char '"' _) (.cons (.char ',' [0x80]) (.cons h .nil))))))))
  · refine .last (.more (t := ['"', 'a', '"', ' ', '"', 'b', '"']) (u := ['�']) (.quoted ?_) (.last (.plain ?_ ?_ ?_)))
    · exact .more (a := []) (t := ['a']) (b := [' ']) (by simp) (.char (by decide) .nil) (by decide) (by decide)
        (.last (a := []) (t := ['b']) (b := []) (by simp) (.char (by decide) .nil) (by simp))
    · decide
    · intro a u _ he
      have : '"' ∈ ['�'] := by rw [he]; simp
      exact absurd this (by decide)
    · exact ⟨⟨[], [], by decide, by decide, rfl⟩, by decide, by decide⟩

/-- Whether a run returned an error. -/
def csvRejected (r : Out (Formula.ParseRes (List (List Bytes)))) : Bool :=
  match r with
  | .ok (.failed _ _) => true
  | _ => false

theorem csvRejected_iff {n : Nat} {s : Bytes} (h : csvRejected (Csv.parse n s) = true) : ∃ n o p, Csv.parse n s = .ok (.failed o p) := by
  refine ⟨n, ?_⟩
  generalize Csv.parse n s = r at h
  match r, h with
  | .ok (.failed o p), _ => exact ⟨o, p, rfl⟩

/-- A quoted part with something after it in its cell is no cell. -/
example : ¬ ∃ t rows, Reads (b! "\"a\" b") t ∧ TableText t rows :=
  (C67_error _).1 (csvRejected_iff (n := 60) (by cbv))

/-- Neither is a quoted part without end. -/
example : ¬ ∃ t rows, Reads (b! "x,\"a") t ∧ TableText t rows :=
  (C67_error _).1 (csvRejected_iff (n := 60) (by cbv))

end Takenoco
