import Verif.Lemmas.CsvBlame
import Verif.Props.CsvExact
import Verif.Props.FormulaBlame
/-
C73: the errors of the csv example.
-/
namespace Takenoco
open Spec

/-- Some text and table are spelled by the bytes. -/
abbrev IsTable (s : Bytes) : Prop := ∃ t rows, Reads s t ∧ TableText t rows

theorem noEnv_local (x : Nat) : LocalGram (noEnv x) := by
  localgram [noEnv]

/-- No text is both a table and a broken one. -/
theorem C73_not_table {s : Bytes} {t : List Char} (h : Reads s t) (hb : BrokenTable t) : ¬ IsTable s := fun ⟨u, rows, h1, h2⟩ => by
  obtain ⟨c', h3, _⟩ := document_hits (env := noEnv) h2 h1 (newStrCtx s) (by simpa using newStrCtx_at s)
  rw [document_misses hb h _ (newStrCtx_at s)] at h3
  cases h3

theorem reads_snoc {s : Bytes} {t : List Char} (h : Reads s t) : Reads (s ++ [0x22]) (t ++ ['"']) :=
  span_reads.1 (span_append (by simpa using span_snoc (span_reads.2 h)) (span_single (rest := []) (w := [0x22]) (ch := '"') (.char '"' [])))

/-- The errors of `csv.Parse`: either the text ends in a quoted cell, and one more quote makes it a table, or something follows a quoted cell. -/
theorem C73_report (s : Bytes) (n : Nat) (o : Option Err) (p : LineAndCol) (h : Csv.parse n s = .ok (.failed o p)) :
    (o = some (.msg "Unexpected EOF") ∧ p.position = s.length ∧ getLineAndCol s s.length 4 = .ok p ∧ IsTable (s ++ [0x22])) ∨
    (o = none ∧ p.position = 0 ∧ p.line = 1 ∧ p.col = 1 ∧ ∃ t, Reads s t ∧ BrokenTable t) := by
  cases hr : run noEnv n Csv.document (newStrCtx s) with
  | timeout => rw [csv_parse_of hr] at h; cases h
  | panic x => rw [csv_parse_of hr] at h; cases h
  | ok oe =>
    obtain ⟨c, e⟩ := oe
    have hd : den noEnv Csv.document (newStrCtx s) = .ok (c, e) := by rw [den_of_run (n := n) (by rw [hr]; simp), hr]
    have hb := document_blames (env := noEnv) (n := s.length) (X := fun _ _ => True) (fun _ _ _ _ => trivial) _ _ _ (newStrCtx_at s) (Nat.le_refl _)
    rw [hd] at hb
    rw [csv_parse_of hr] at h
    simp only [Out.bind, Csv.finish] at h
    cases e with
    | some e =>
      simp only at h
      cases hp : getLineAndCol s c.pos 4 with
      | ok q =>
        rw [hp] at h; cases h
        obtain ⟨u, v, rfl, h2, rfl, _, h3, _, h4⟩ := hb { c with status := .error } (some e) rfl
        simp only [List.length_nil, Nat.zero_add] at h2
        rw [h2] at hp
        exact .inl ⟨h3, by rw [(position_of hp).2.1]; simp, by simpa using hp, by rw [List.append_nil]; exact h4⟩
      | panic x => rw [hp] at h; cases h
      | timeout => rw [hp] at h; cases h
    | none =>
      simp only at h
      split at h
      · cases hg : goGet c.stack 0 with
        | ok a =>
          rw [hg] at h
          cases ha : Csv.asStrss a.val <;> simp [bind, Out.bind, ha, pure] at h
        | panic x => rw [hg] at h; cases h
        | timeout => rw [hg] at h; cases h
      · rename_i hm
        cases hp : getLineAndCol s c.pos 4 with
        | ok q =>
          rw [hp] at h; cases h
          cases hst : c.status with
          | matched => exact absurd hst hm
          | unmatched =>
            have hu : Outcome.of (den noEnv Csv.document (newStrCtx s)) = .unmatched := by rw [hd]; simp [Outcome.of, hst]
            have h0 : c.pos = 0 := trans_stays _ _ hd hst
            rw [h0] at hp
            obtain ⟨_, h1, h2⟩ := position_of hp
            exact .inr ⟨rfl, h1, (h2 rfl).1, (h2 rfl).2,
              document_stops (X := fun _ _ => True) (fun _ _ _ _ => trivial) noEnv_local _ _ _ (newStrCtx_at s) (.stop hu (fun _ h => by cases h))⟩
          | error =>
            obtain ⟨_, _, _, _, _, _, h, _⟩ := hb c none (by simp [Outcome.of, hst])
            cases h
        | panic x => rw [hp] at h; cases h
        | timeout => rw [hp] at h; cases h

/-- "Unexpected EOF" is reported exactly if the text is no table and one more quote makes it one. -/
theorem C73_eof (s : Bytes) : (∃ n p, Csv.parse n s = .ok (.failed (some (.msg "Unexpected EOF")) p)) ↔ ¬ IsTable s ∧ IsTable (s ++ [0x22]) := by
  constructor
  · rintro ⟨n, p, h⟩
    refine ⟨(C67_error s).1 ⟨n, _, p, h⟩, ?_⟩
    rcases C73_report s n _ p h with h | h
    · exact h.2.2.2
    · cases h.1
  · rintro ⟨h1, h2⟩
    obtain ⟨n, o, p, h⟩ := (C67_error s).2 h1
    rcases C73_report s n o p h with ⟨rfl, _⟩ | ⟨_, _, _, _, t, h3, h4⟩
    · exact ⟨n, p, h⟩
    · exact absurd h2 (C73_not_table (reads_snoc h3) (brokenTable_snoc h4))

/-- An error without a cause is returned exactly if something follows a quoted cell. -/
theorem C73_junk (s : Bytes) : (∃ n p, Csv.parse n s = .ok (.failed none p)) ↔ ∃ t, Reads s t ∧ BrokenTable t := by
  constructor
  · rintro ⟨n, p, h⟩
    rcases C73_report s n _ p h with h | h
    · cases h.1
    · exact h.2.2.2.2
  · rintro ⟨t, h1, h2⟩
    obtain ⟨n, o, p, h⟩ := (C67_error s).2 (C73_not_table h1 h2)
    rcases C73_report s n o p h with ⟨_, _, _, h3⟩ | ⟨rfl, _⟩
    · exact absurd h3 (C73_not_table (reads_snoc h1) (brokenTable_snoc h2))
    · exact ⟨n, p, h⟩

/-! ### Examples -/

/-- The error and the position it is reported at. -/
private def report {α : Type} : Out (Formula.ParseRes α) → Option (Option Err × Nat × Nat × Nat)
  | .ok (.failed o p) => some (o, p.position, p.line, p.col)
  | _ => none

example : report (Csv.parse 99 (b! "a,b\nc,\"d,e\nf")) = some (some (.msg "Unexpected EOF"), 12, 3, 2) := by cbv
example : report (Csv.parse 99 (b! "a,b\nc,\"d\" e\nf")) = some (none, 0, 1, 1) := by cbv

example : IsTable (b! "a\n\"b,c" ++ [0x22]) :=
  ⟨['a', '\n', '"', 'b', ',', 'c', '"'], [[['a']], [['b', ',', 'c']]], span_reads.1 (show Span [] (utf8s ['a', '\n', '"', 'b', ',', 'c', '"']) _ from span_utf8s [] _),
    .more (t := ['a']) (bs := ['\n']) (u := ['"', 'b', ',', 'c', '"'])
      (.last (.plain (by decide) (fun a u ha h => by
        cases a with
        | nil => simp at h
        | cons x a => simp at h) ⟨⟨[], [], by simp, by simp, rfl⟩, by simp [Blank], by simp [Blank]⟩)) (by simp) (by decide) (by simp; decide)
      (.last (.last (.quoted (.last (a := []) (t := ['b', ',', 'c']) (b := []) (by simp) (.char (by decide) (.char (by decide) (.char (by decide) .nil))) (by simp)))))⟩

example : ∃ t, Reads (b! "\"d\" e") t ∧ BrokenTable t :=
  ⟨['"', 'd', '"', ' ', 'e'], span_reads.1 (show Span [] (utf8s ['"', 'd', '"', ' ', 'e']) _ from span_utf8s [] _),
    .here (.here (q := ['"', 'd', '"', ' ']) (.last (a := []) (t := ['d']) (b := [' ']) (by simp) (.char (by decide) .nil) (by decide)) ⟨by decide, by decide, by decide⟩)⟩

#print axioms C73_not_table
#print axioms C73_report
#print axioms C73_eof
#print axioms C73_junk

end Takenoco
