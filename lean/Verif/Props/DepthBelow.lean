import Verif.Lemmas.DepthBelow
import Verif.Props.CallsBelow
import Verif.Props.Depth
/-
C106: opening brackets nest parser calls.
-/
namespace Takenoco
open Spec Trace

/-! ### C106: the nesting of the parser calls of the formula parsers is linear in the opening brackets -/

/-- **C106.** `formula.Parse`, with every parser under a tracer, nests at least `7 k + 1` parser calls for a text that starts with `k` opening brackets, whatever
follows them and however the parse ends. -/
theorem C106_formula (i : Info) (k N : Nat) (rest : Bytes) (log : Log)
    (hN : run Formula.env N Formula.program (newStrCtx (List.replicate k 0x28 ++ rest)) ≠ .timeout) :
    ∃ l, ((Formula.program.traced i).run (fun name _ => (Formula.env name).traced i) N (newStrCtx (List.replicate k 0x28 ++ rest)) log).2.events = log.events ++ l ∧
      7 * k + 1 ≤ nesting 0 l := by
  obtain ⟨l, h1, h2⟩ := program_sinks (tr := Formula.formulaProductionRules) (i := i) rest k N _ ⟨rfl, rfl, rfl⟩ hN log
  exact ⟨l, h1, by have := h2 0; omega⟩

/-- C106. The same for `torpn.Parse`. -/
theorem C106_torpn (i : Info) (k N : Nat) (rest : Bytes) (log : Log)
    (hN : run ToRpn.env N ToRpn.program (newStrCtx (List.replicate k 0x28 ++ rest)) ≠ .timeout) :
    ∃ l, ((ToRpn.program.traced i).run (fun name _ => (ToRpn.env name).traced i) N (newStrCtx (List.replicate k 0x28 ++ rest)) log).2.events = log.events ++ l ∧
      7 * k + 1 ≤ nesting 0 l := by
  obtain ⟨l, h1, h2⟩ := program_sinks (tr := ToRpn.formulaProductionRules) (i := i) rest k N _ ⟨rfl, rfl, rfl⟩ hN log
  exact ⟨l, h1, by have := h2 0; omega⟩

theorem bracketed_spells : ∀ k : Nat, ∃ q, Spells .sum false q (.lit 1) (List.replicate k 0x28 ++ 0x31 :: List.replicate k 0x29)
  | 0 => ⟨true, .product (.unary (.atom (.lit (w := [0x31]) (b := []) one_digits (by decide) ⟨[], by simp, rfl⟩)))⟩
  | k + 1 => by
    obtain ⟨q, h⟩ := bracketed_spells k
    refine ⟨false, .product (.unary (.atom ?_))⟩
    have := Spells.paren (p := false) (b₁ := []) (b₂ := []) ⟨[], by simp, rfl⟩ h ⟨[], by simp, rfl⟩
    rw [show List.replicate (k + 1) (0x29 : UInt8) = List.replicate k 0x29 ++ [0x29] from List.replicate_succ', List.replicate_succ]
    simpa using this

theorem bracketed_spelled (k : Nat) : Spelled (List.replicate k 0x28 ++ 0x31 :: List.replicate k 0x29) (.lit 1) := by
  obtain ⟨q, h⟩ := bracketed_spells k
  exact ⟨[], _, q, rfl, ⟨[], by simp, rfl⟩, h⟩

/-- **C106.** Any depth is needed for texts that are accepted: `formula.Parse` finds the value 1 of a `1` in `k` pairs of brackets (`2 k + 1` bytes) with at least
`7 k + 1` nested parser calls, and by C98 with at most `44 k + 63`. -/
theorem C106_formula_brackets (i : Info) (k : Nat) :
    ∃ N, ∀ n, N ≤ n → Formula.parse n (List.replicate k 0x28 ++ 0x31 :: List.replicate k 0x29) = .ok (.value 1) ∧
      ∀ log, ∃ l, ((Formula.program.traced i).run (fun name _ => (Formula.env name).traced i) n
          (newStrCtx (List.replicate k 0x28 ++ 0x31 :: List.replicate k 0x29)) log).2.events = log.events ++ l ∧
        7 * k + 1 ≤ nesting 0 l ∧ nesting 0 l ≤ 44 * k + 63 := by
  obtain ⟨N, hN⟩ := (formula_accepted (bracketed_spelled k)).1 1 rfl
  obtain ⟨M, hM⟩ := formula_ends (List.replicate k 0x28 ++ 0x31 :: List.replicate k 0x29)
  refine ⟨max N M, fun n hn => ⟨hN n (by omega), fun log => ?_⟩⟩
  obtain ⟨l, h1, h2⟩ := C106_formula i k n _ log (hM n (by omega))
  obtain ⟨l', h3, h4⟩ := C98_formula i n (List.replicate k 0x28 ++ 0x31 :: List.replicate k 0x29) log
  have hl : l' = l := List.append_cancel_left (h3.symm.trans h1)
  subst hl
  refine ⟨l', h1, h2, Nat.le_trans h4 ?_⟩
  simp
  omega

/-- C106. `torpn.Parse` finds the postfix form of a `1` in `k` pairs of brackets with as many nested parser calls. -/
theorem C106_torpn_brackets (i : Info) (k : Nat) :
    ∃ N, ∀ n, N ≤ n → ToRpn.parse n (List.replicate k 0x28 ++ 0x31 :: List.replicate k 0x29) = .ok (.value (Expr.lit 1).postfix.items) ∧
      ∀ log, ∃ l, ((ToRpn.program.traced i).run (fun name _ => (ToRpn.env name).traced i) n
          (newStrCtx (List.replicate k 0x28 ++ 0x31 :: List.replicate k 0x29)) log).2.events = log.events ++ l ∧
        7 * k + 1 ≤ nesting 0 l ∧ nesting 0 l ≤ 44 * k + 63 := by
  obtain ⟨N, hN⟩ := torpn_accepted (bracketed_spelled k)
  obtain ⟨M, hM⟩ := torpn_ends (List.replicate k 0x28 ++ 0x31 :: List.replicate k 0x29)
  refine ⟨max N M, fun n hn => ⟨hN n (by omega), fun log => ?_⟩⟩
  obtain ⟨l, h1, h2⟩ := C106_torpn i k n _ log (hM n (by omega))
  obtain ⟨l', h3, h4⟩ := C98_torpn i n (List.replicate k 0x28 ++ 0x31 :: List.replicate k 0x29) log
  have hl : l' = l := List.append_cancel_left (h3.symm.trans h1)
  subst hl
  refine ⟨l', h1, h2, Nat.le_trans h4 ?_⟩
  simp
  omega

/-- **C106.** A text of `k` opening brackets alone, which is not accepted, is already that deep: nothing stops the recursion before the end of the text. So
for any depth of nested calls there is a text that needs more, of both examples. -/
theorem C106_unbounded (i : Info) (d : Nat) :
    ∃ s : Bytes, s.length ≤ d ∧ ∃ N, ∀ n, N ≤ n → ∀ log,
      (∃ l, ((Formula.program.traced i).run (fun name _ => (Formula.env name).traced i) n (newStrCtx s) log).2.events = log.events ++ l ∧ d < nesting 0 l) ∧
      (∃ l, ((ToRpn.program.traced i).run (fun name _ => (ToRpn.env name).traced i) n (newStrCtx s) log).2.events = log.events ++ l ∧ d < nesting 0 l) := by
  obtain ⟨N, hN⟩ := formula_ends (List.replicate d 0x28 ++ [])
  obtain ⟨M, hM⟩ := torpn_ends (List.replicate d 0x28 ++ [])
  refine ⟨List.replicate d 0x28 ++ [], by simp, max N M, fun n hn log => ?_⟩
  obtain ⟨l, h1, h2⟩ := C106_formula i d n _ log (hN n (by omega))
  obtain ⟨l', h3, h4⟩ := C106_torpn i d n _ log (hM n (by omega))
  exact ⟨⟨l, h1, by omega⟩, ⟨l', h3, by omega⟩⟩

/-! ### Cases -/

/-- `((1))`: the run with fuel 60 ends, as C106 asks for; 29 calls are nested, which is at least 15. -/
example : run Formula.env 60 Formula.program (newStrCtx (List.replicate 2 0x28 ++ b! "1))")) ≠ .timeout ∧
    nesting 0 ((Formula.program.traced ⟨0, "", 0, ""⟩).run (fun name _ => (Formula.env name).traced ⟨0, "", 0, ""⟩) 60
      (newStrCtx (List.replicate 2 0x28 ++ b! "1))")) ⟨0, []⟩).2.events = 29 := by
  refine ⟨fun h => ?_, by decide +kernel⟩
  have : (match run Formula.env 60 Formula.program (newStrCtx (List.replicate 2 0x28 ++ b! "1))")) with | .timeout => true | _ => false) = false := by decide +kernel
  rw [h] at this
  cases this

/-- A text that is not accepted: `((*` is left with an error after 26 nested calls. -/
example : nesting 0 ((ToRpn.program.traced ⟨0, "", 0, ""⟩).run (fun name _ => (ToRpn.env name).traced ⟨0, "", 0, ""⟩) 60
      (newStrCtx (b! "((*")) ⟨0, []⟩).2.events = 26 := by
  decide +kernel

/-- Two pairs of brackets. -/
example : List.replicate 2 0x28 ++ 0x31 :: List.replicate 2 0x29 = b! "((1))" := by decide

#print axioms C106_formula
#print axioms C106_torpn
#print axioms C106_formula_brackets
#print axioms C106_torpn_brackets
#print axioms C106_unbounded

end Takenoco
