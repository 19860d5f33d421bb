import Verif.Lemmas.FormulaTotal
import Verif.Props.FormulaParse
/-
C50: the formula example is total up to division by zero.
C55: the torpn example is total.
-/
namespace Takenoco
open Spec

theorem formula_parse_of {n : Nat} {s : Bytes} {r : Out PRes} (h : run Formula.env n Formula.program (newStrCtx s) = r) :
    Formula.parse n s = r.bind (Formula.finish s) := by
  unfold Formula.parse; rw [h]; rfl

theorem torpn_parse_of {n : Nat} {s : Bytes} {r : Out PRes} (h : run ToRpn.env n ToRpn.program (newStrCtx s) = r) :
    ToRpn.parse n s = r.bind (ToRpn.finish s) := by
  unfold ToRpn.parse; rw [h]; rfl

/-- On every source, `formula.Parse` returns a value or an error, or it panics because of a division by zero. -/
theorem C50_formula_total (s : Bytes) :
    ∃ N, (∃ r, ∀ n, N ≤ n → Formula.parse n s = .ok r) ∨ (∀ n, N ≤ n → Formula.parse n s = .panic .divZero) := by
  have hp := program_total formula_rules (X := (· = .divZero)) (fun _ _ _ => rfl) s.length
  obtain ⟨N, h⟩ := total_run s hp flat_stays
  refine ⟨N, ?_⟩
  rcases h with ⟨l, o, ⟨a, d, rfl, hd⟩, h2, h3, h4⟩ | ⟨o, e, h1, h2, h3⟩ | ⟨x, rfl, h2⟩
  · refine .inl ⟨.value d, fun n hn => ?_⟩
    rw [formula_parse_of (h4 n hn)]
    simp [Out.bind, Formula.finish, h3, h2, goGet, hd.2, Formula.asInt]
  · obtain ⟨r, hr⟩ := getLineAndCol_ok (t := 4) h2 (by omega)
    refine .inl ⟨.failed e r, fun n hn => ?_⟩
    rw [formula_parse_of (h3 n hn)]
    cases e with
    | some e => simp [Out.bind, Formula.finish, hr]
    | none => simp [Out.bind, Formula.finish, hr, h1 rfl]
  · exact .inr fun n hn => by rw [formula_parse_of (h2 n hn)]; rfl

/-- On every source, `torpn.Parse` returns a list or an error. -/
theorem C55_torpn_total (s : Bytes) : ∃ N r, ∀ n, N ≤ n → ToRpn.parse n s = .ok r := by
  have hp := program_total rpn_rules (X := fun _ => False) (fun x rest h => by
    obtain ⟨v, hv⟩ := chainValue_total Rpn.neg Rpn.bin x rest
    rw [hv] at h; cases h) s.length
  obtain ⟨N, h⟩ := total_run s hp flat_stays
  refine ⟨N, ?_⟩
  rcases h with ⟨l, o, ⟨a, d, rfl, hd⟩, h2, h3, h4⟩ | ⟨o, e, h1, h2, h3⟩ | ⟨x, hx, h2⟩
  · refine ⟨.value d.items, fun n hn => ?_⟩
    rw [torpn_parse_of (h4 n hn)]
    cases d with
    | int v => simp [Out.bind, ToRpn.finish, h3, h2, goGet, hd.2, Formula.asInt, Rpn.items]
    | list items =>
      obtain ⟨_, h5, l, h7, h8⟩ := hd
      simp [Out.bind, ToRpn.finish, h3, h2, goGet, h5, h7, ToRpn.asList, Rpn.items, h8]
  · obtain ⟨r, hr⟩ := getLineAndCol_ok (t := 4) h2 (by omega)
    refine ⟨.failed e r, fun n hn => ?_⟩
    rw [torpn_parse_of (h3 n hn)]
    cases e with
    | some e => simp [Out.bind, ToRpn.finish, hr]
    | none => simp [Out.bind, ToRpn.finish, hr, h1 rfl]
  · exact hx.elim

/-! ### All three ends occur -/

/-- How a call ended: with a value, with an error, or with a panic. -/
private def endOf {α : Type} : Out (Formula.ParseRes α) → Option Bool
  | .ok (.value _) => some true
  | .ok (.failed _ _) => some false
  | _ => none

example : endOf (Formula.parse 99 (b! "1+(2)")) = some true := by cbv
example : endOf (Formula.parse 99 (b! "1+(2")) = some false := by cbv
example : Formula.parse 99 (b! "1/0") = .panic .divZero := by cbv
example : endOf (ToRpn.parse 99 (b! "1/0")) = some true := by cbv
example : endOf (ToRpn.parse 99 (b! "1/")) = some false := by cbv

end Takenoco
