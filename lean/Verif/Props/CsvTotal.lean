import Verif.Lemmas.CsvTotal
/-
C39: the csv example is total.
-/
namespace Takenoco
open Spec

/-- On every source, `csv.Parse` returns a table or an error. -/
theorem C39_csv_total (s : Bytes) : ∃ N r, ∀ n, N ≤ n → Csv.parse n s = .ok r := by
  obtain ⟨N, h⟩ := total_run s (X := fun _ => False) (document_total (env := noEnv)) trans_stays
  have hp : ∀ {n : Nat} {r : Out PRes}, run noEnv n Csv.document (newStrCtx s) = r → Csv.parse n s = r.bind (Csv.finish s) := fun h => by
    unfold Csv.parse; rw [h]; rfl
  refine ⟨N, ?_⟩
  rcases h with ⟨l, o, ⟨a, t, rfl, ht⟩, h2, h3, h4⟩ | ⟨o, e, h1, h2, h3⟩ | ⟨x, hx, h2⟩
  · refine ⟨.value t, fun n hn => ?_⟩
    rw [hp (h4 n hn)]
    simp [Out.bind, Csv.finish, h3, h2, goGet, ht, Csv.asStrss]
  · obtain ⟨r, hr⟩ := getLineAndCol_ok (t := 4) h2 (by omega)
    refine ⟨.failed e r, fun n hn => ?_⟩
    rw [hp (h3 n hn)]
    cases e with
    | some e => simp [Out.bind, Csv.finish, hr]
    | none => simp [Out.bind, Csv.finish, hr, h1 rfl]
  · exact hx.elim

/-- How a call ended: with a value or with an error. -/
private def endOf {α : Type} : Out (Formula.ParseRes α) → Option Bool
  | .ok (.value _) => some true
  | .ok (.failed _ _) => some false
  | _ => none

example : endOf (Csv.parse 99 (b! "a,\"b\n\"\r\n,\n")) = some true := by cbv
example : endOf (Csv.parse 99 (b! "a,\"b")) = some false := by cbv
example : endOf (Csv.parse 99 (b! "\"a\" b")) = some false := by cbv

end Takenoco
