import Verif.Lemmas.RpnRules
/-
C35: the production rules of the formula example implement operator precedence.
C37 (the rules): those of the torpn example build the postfix form.
-/
namespace Takenoco
open Spec

/-- The production rules of the formula example, applied to the tokens of a chain `x₀ op₁ x₁ op₂ x₂ …` of signed numbers,
give its value; they panic if a division by zero is met. -/
theorem C35_precedence (c : Ctx) (asts : List Ast) (x : Signed Int64) (rest : List (BinOp × Signed Int64))
    (h : Toks NumTok asts (chainToks x rest)) :
    (∀ v, chainValue int64Neg int64Op x rest = some v → ∃ y N, NumTok y (.operand v) ∧
      ∀ n, N ≤ n → runTr Formula.env n Formula.formulaProductionRules c asts = .ok ([y], none)) ∧
    (chainValue int64Neg int64Op x rest = none → ∃ N,
      ∀ n, N ≤ n → runTr Formula.env n Formula.formulaProductionRules c asts = .panic .divZero) := by
  have hg := formulaTr_gives c asts x rest h
  refine ⟨fun v hv => ?_, fun hv => ?_⟩
  · obtain ⟨y, h1, h2⟩ := hg.1 v hv
    obtain ⟨N, hN⟩ := runTr_of_den h2 (by simp)
    exact ⟨y, N, h1, hN⟩
  · exact runTr_of_den (hg.2 hv) (by simp)

/-- `NumTok` as a token of the example. -/
private def tokAst : Tok Int64 → Ast
  | .operand v => { Ast.zero with cls := "Number", ty := .int, val := .int v }
  | .neg => { Ast.zero with cls := "UnaryOperator", ty := .string, val := .str [0x2d] }
  | .bin op => { Ast.zero with cls := "BinaryOperator", ty := .string, val := .str [op.char] }

private theorem tokAst_toks (ts : List (Tok Int64)) : Toks NumTok (ts.map tokAst) ts := by
  induction ts with
  | nil => exact .nil
  | cons t ts ih => exact .cons (by cases t <;> exact ⟨rfl, rfl⟩) ih

/-- `1 - --2 * 3 / 4 - 5`: -5 -/
example (c : Ctx) : ∃ y N, NumTok y (.operand (-5)) ∧ ∀ n, N ≤ n → runTr Formula.env n Formula.formulaProductionRules c
    ((chainToks (0, (1 : Int64)) [(.sub, (2, 2)), (.mul, (0, 3)), (.div, (0, 4)), (.sub, (0, 5))]).map tokAst) = .ok ([y], none) :=
  (C35_precedence c _ _ _ (tokAst_toks _)).1 _ (by decide)

/-- `1 + 2 / (3 - 3)` as tokens with the difference already evaluated -/
example (c : Ctx) : ∃ N, ∀ n, N ≤ n → runTr Formula.env n Formula.formulaProductionRules c
    ((chainToks (0, (1 : Int64)) [(.add, (0, 2)), (.div, (0, 0))]).map tokAst) = .panic .divZero :=
  (C35_precedence c _ _ _ (tokAst_toks _)).2 (by decide)

/-- The production rules of the torpn example, applied to the tokens of such a chain of postfix expressions, give the
postfix form of the whole. -/
theorem C37_rules (c : Ctx) (asts : List Ast) (x : Signed Rpn) (rest : List (BinOp × Signed Rpn))
    (h : Toks RpnTok asts (chainToks x rest)) :
    ∃ v y N, chainValue Rpn.neg (fun op a b => some (Rpn.bin op a b)) x rest = some v ∧ RpnTok y (.operand v) ∧
      ∀ n, N ≤ n → runTr ToRpn.env n ToRpn.formulaProductionRules c asts = .ok ([y], none) := by
  obtain ⟨v, y, h1, h2, h3⟩ := rpnTr_gives c asts x rest h
  obtain ⟨N, hN⟩ := runTr_of_den h3 (by simp)
  exact ⟨v, y, N, h1, h2, hN⟩

private def rpnAst : Tok Rpn → Ast
  | .operand (.int v) => { Ast.zero with cls := "Number", ty := .int, val := .int v }
  | .operand (.list l) => { Ast.zero with cls := "List", ty := .listOfAst, val := .list (l.map fun v => { Ast.zero with val := v }) }
  | .neg => { Ast.zero with cls := "UnaryOperator", ty := .string, val := .str [0x2d] }
  | .bin op => { Ast.zero with cls := "BinaryOperator", ty := .string, val := .str [op.char] }

private theorem rpnAst_toks (ts : List (Tok Rpn)) : Toks RpnTok (ts.map rpnAst) ts := by
  induction ts with
  | nil => exact .nil
  | cons t ts ih =>
    refine .cons ?_ ih
    cases t with
    | operand d =>
      cases d with
      | int v => exact ⟨rfl, rfl, rfl⟩
      | list l => exact ⟨rfl, rfl, _, rfl, by rw [List.map_map]; exact List.map_id l⟩
    | neg => exact ⟨rfl, rfl⟩
    | bin op => exact ⟨rfl, rfl⟩

/-- `1 - -2 * 3`: `1 -2 3 * -` -/
example (c : Ctx) : ∃ y N, RpnTok y (.operand (.list [.int 1, .int (-2), .int 3, .str [0x2a], .str [0x2d]])) ∧
    ∀ n, N ≤ n → runTr ToRpn.env n ToRpn.formulaProductionRules c
    ((chainToks (0, .int 1) [(.sub, (1, .int 2)), (.mul, (0, .int 3))]).map rpnAst) = .ok ([y], none) := by
  obtain ⟨v, y, N, h1, h2, h3⟩ := C37_rules c _ _ _ (rpnAst_toks (chainToks (0, .int 1) [(.sub, (1, .int 2)), (.mul, (0, .int 3))]))
  have : v = .list [.int 1, .int (-2), .int 3, .str [0x2a], .str [0x2d]] := by
    have h4 := h1.symm
    simpa [chainValue, products, fromLeft, applySigns, BinOp.tight, Rpn.neg, Rpn.bin, Rpn.items, BinOp.char, int64Neg] using h4
  exact ⟨y, N, this ▸ h2, h3⟩

end Takenoco
