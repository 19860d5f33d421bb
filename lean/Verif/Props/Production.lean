import Verif.Lemmas.Production
import Verif.Lemmas.ProductionPanics
import Verif.Lemmas.Den
import Verif.Model.Examples.Formula
/-
C34: ProductionRule.
-/
namespace Takenoco
open Spec

/-- The result of a `ProductionRule` inside a grammar, for any fuel, is the one the rewriting relation gives. -/
theorem C34_production (levels : List (List Sem × Bool)) (check : Sem) (c : Ctx) (asts l : List Ast) :
    ((∃ fuel, productionRule fuel levels check c asts = .ok (l, none)) ↔ Produces levels check c.tag asts (.ok l)) ∧
    (∀ e, (∃ fuel l', productionRule fuel levels check c asts = .ok (l', some e)) ↔ Produces levels check c.tag asts (.error e)) := by
  constructor
  · constructor
    · rintro ⟨fuel, h⟩
      obtain ⟨r, h1, h2⟩ := produces_of h
      cases r with
      | ok l' => cases h2; exact h1
      | error e => cases h2
    · intro h
      obtain ⟨N, hN⟩ := productionLoop_of h
      exact ⟨N, hN N (Nat.le_refl _)⟩
  · intro e
    constructor
    · rintro ⟨fuel, l', h⟩
      obtain ⟨r, h1, h2⟩ := produces_of h
      cases r with
      | ok l' => cases h2
      | error e => cases h2; exact h1
    · intro h
      obtain ⟨N, hN⟩ := productionLoop_of h
      exact ⟨N, [], hN N (Nat.le_refl _)⟩

/-- The same for a production rule inside a grammar, whose rules and check are grammars. -/
theorem C34_grammar (env : Env) (precs : List (List Gram × Bool)) (check : Gram) (c : Ctx) (asts l : List Ast) :
    (denTr env (.production precs check) c asts = .ok (l, none) ↔
      Produces (precs.map fun p => (p.1.map (den env), p.2)) (den env check) c.tag asts (.ok l)) ∧
    (∀ e, (∃ l', denTr env (.production precs check) c asts = .ok (l', some e)) ↔
      Produces (precs.map fun p => (p.1.map (den env), p.2)) (den env check) c.tag asts (.error e)) := by
  have key : ∀ x, denTr env (.production precs check) c asts = .ok x ↔
      ∃ fuel, productionRule fuel (precs.map fun p => (p.1.map (den env), p.2)) (den env check) c asts = .ok x := by
    intro x
    constructor
    · intro h
      by_cases hd : ∃ fuel, productionRule fuel (precs.map fun p => (p.1.map (den env), p.2)) (den env check) c asts ≠ .timeout
      · obtain ⟨fuel, hf⟩ := hd
        exact ⟨fuel, by rw [← denTr_production_of env precs check c asts fuel hf, h]⟩
      · rw [denTr_production_diverges env precs check c asts (fun fuel => Classical.byContradiction fun hn => hd ⟨fuel, hn⟩)] at h
        cases h
    · rintro ⟨fuel, h⟩
      rw [denTr_production_of env precs check c asts fuel (by rw [h]; intro h; cases h), h]
  have h := C34_production (precs.map fun p => (p.1.map (den env), p.2)) (den env check) c asts l
  constructor
  · rw [key]; exact h.1
  · intro e
    rw [← h.2 e]
    constructor
    · rintro ⟨l', h'⟩
      obtain ⟨fuel, h'⟩ := (key _).1 h'
      exact ⟨fuel, l', h'⟩
    · rintro ⟨fuel, l', h'⟩
      exact ⟨l', (key _).2 ⟨fuel, h'⟩⟩

/-- And a panic of `ProductionRule` is one of a rule or of the check, met by rewriting. -/
theorem C34_panics (levels : List (List Sem × Bool)) (check : Sem) (c : Ctx) (asts : List Ast) (x : Panic) :
    (∃ fuel, productionRule fuel levels check c asts = .panic x) ↔ ProdPanics levels check c.tag asts x := by
  constructor
  · rintro ⟨fuel, h⟩
    exact prodPanics_of h
  · intro h
    obtain ⟨N, hN⟩ := productionLoop_panics h
    exact ⟨N, hN N (Nat.le_refl _)⟩

/-- A list that is returned is accepted by the check. -/
theorem C34_checked (fuel : Nat) (levels : List (List Sem × Bool)) (check : Sem) (c : Ctx) (asts l : List Ast)
    (h : productionRule fuel levels check c asts = .ok (l, none)) : Accepts check c.tag l := by
  replace h := (C34_production levels check c asts l).1.1 ⟨fuel, h⟩
  generalize hr : Except.ok l = r at h
  induction h with
  | idle _ h => cases hr; exact h
  | stuck => cases hr
  | last _ h => cases hr; exact h
  | next _ _ _ ih => exact ih hr
  | fail => cases hr

/-- Without an applicable rule, the list is returned unchanged if the check accepts it, and it is an error otherwise. -/
theorem C34_idle (fuel : Nat) (levels : List (List Sem × Bool)) (check : Sem) (c : Ctx) (asts : List Ast) (hi : Idle levels c.tag asts) :
    (Accepts check c.tag asts → productionRule (fuel + 1) levels check c asts = .ok (asts, none)) ∧
    (Declines check c.tag asts → productionRule (fuel + 1) levels check c asts =
      .ok ([], some (.msg "Production rules are not matched."))) := by
  unfold productionRule productionLoop
  rw [(tryPrecedences_iff c.tag asts levels .noMatch).2 hi]
  constructor
  · intro h; simp only; rw [(checkHolds_iff check c.tag asts).1.2 h]
  · intro h; simp only; rw [(checkHolds_iff check c.tag asts).2.2 h]

/-- If the rules and the check return, and every rewriting step shortens the list, `ProductionRule` terminates (and does
not panic), after at most as many rounds as there are ASTs, and one. -/
theorem C34_terminates (levels : List (List Sem × Bool)) (check : Sem) (c : Ctx) (asts : List Ast)
    (hr : ∀ l ∈ levels, ∀ r ∈ l.1, TotalRule c.tag r) (hc : ∀ asts, ∃ o e, check (overAsts c.tag asts 0) = .ok (o, e))
    (hs : ∀ asts asts', ProdStep levels c.tag asts (.ok asts') → asts'.length < asts.length) :
    ∃ l e, productionRule (asts.length + 1) levels check c asts = .ok (l, e) :=
  productionLoop_total hr hc hs _ _ (Nat.lt_succ_self _)

/-- Rules which put fewer ASTs than they take shorten the list. -/
theorem C34_shortens (levels : List (List Sem × Bool)) (tag : Value)
    (h : ∀ l ∈ levels, ∀ r ∈ l.1, ∀ asts p o, p ≤ asts.length → r (overAsts tag asts p) = .ok (o, none) →
      o.status = .matched → p + o.stack.length < o.pos)
    (asts asts' : List Ast) (hs : ProdStep levels tag asts (.ok asts')) : asts'.length < asts.length := by
  obtain ⟨pre, rules, rtol, post, h1, _, p, hp, ha, _⟩ := hs
  cases ha with
  | @rewrite pre' post' r o h2 _ h3 h4 h5 =>
    have := h (rules, rtol) (by rw [h1]; simp) r (by rw [h2]; simp) asts p o hp h3 h4
    simp only [List.length_append, List.length_take, List.length_drop]
    omega

/-- A step that gives the same list back is repeated for ever, if the check does not accept the list. -/
theorem C34_diverges (levels : List (List Sem × Bool)) (check : Sem) (c : Ctx) (asts : List Ast)
    (hs : ProdStep levels c.tag asts (.ok asts)) (hd : Declines check c.tag asts) (fuel : Nat) :
    productionRule fuel levels check c asts = .timeout := by
  induction fuel with
  | zero => rfl
  | succ n ih =>
    unfold productionRule at ih ⊢
    unfold productionLoop
    rw [(tryPrecedences_iff c.tag asts levels (.rewritten asts)).2 hs]
    simp only; rw [(checkHolds_iff check c.tag asts).2.2 hd]
    exact ih

/-! ### Cases -/

/-- The rules of the formula example. -/
noncomputable abbrev formulaLevels : List (List Sem × Bool) :=
  Formula.precedences.map fun p => (p.1.map (den Formula.env), p.2)

noncomputable abbrev formulaCheck : Sem := den Formula.env Formula.checkG

def opTok (cls : String) (s : Bytes) : Ast := { Ast.zero with cls := cls, ty := .string, val := .str s }

/-- `1 - 2 - -3 * 4` as tokens. -/
def someTokens : List Ast := [Formula.numAst 1, opTok "BinaryOperator" (b! "-"), Formula.numAst 2, opTok "BinaryOperator" (b! "-"),
  opTok "UnaryOperator" (b! "-"), Formula.numAst 3, opTok "BinaryOperator" (b! "*"), Formula.numAst 4]

theorem someTokens_run (c : Ctx) (h : c.tag = .nil) :
    denTr Formula.env Formula.formulaProductionRules c someTokens = .ok ([Formula.numAst 11], none) := by
  obtain ⟨str, slice, pos, len, qty, stack, status, cls, tag⟩ := c
  cases h
  have : runTr Formula.env 12 Formula.formulaProductionRules ⟨str, slice, pos, len, qty, stack, status, cls, .nil⟩ someTokens =
      .ok ([Formula.numAst 11], none) := by cbv
  rw [denTr_of_run (n := 12) (by rw [this]; intro h; cases h), this]

/-- Subtraction is evaluated from the left, after the unary minus and the product. -/
example : Produces formulaLevels formulaCheck .nil someTokens (.ok [Formula.numAst 11]) :=
  (C34_grammar Formula.env Formula.precedences Formula.checkG (overAsts .nil [] 0) someTokens _).1.1 (someTokens_run _ rfl)

/-- A rule that panics where it matches an AST with class name "x", after an AST without one has been passed over. -/
example : ProdPanics [([fun c => match c.slice with
      | none => .panic .nilDeref
      | some s => match s.items[c.pos]? with
        | some (.ast a) => if a.cls = "x" then .panic .divZero else .ok ({ c with status := .unmatched }, none)
        | _ => .ok ({ c with status := .unmatched }, none)], false)] (fun c => .ok ({ c with status := .unmatched }, none)) .nil
    [Ast.zero, { Ast.zero with cls := "x" }] .divZero :=
  (C34_panics _ _ (overAsts .nil [] 0) _ _).1 ⟨1, rfl⟩

/-- Two numbers side by side: no rule applies, the check fails. -/
example : Produces formulaLevels formulaCheck .nil [Formula.numAst 1, Formula.numAst 2]
    (.error (.msg "Production rules are not matched.")) := by
  refine ((C34_grammar Formula.env Formula.precedences Formula.checkG (overAsts .nil [] 0) [Formula.numAst 1, Formula.numAst 2] []).2 _).1 ⟨[], ?_⟩
  have : runTr Formula.env 12 Formula.formulaProductionRules (overAsts .nil [] 0) [Formula.numAst 1, Formula.numAst 2] =
      .ok ([], some (.msg "Production rules are not matched.")) := by cbv
  have h := denTr_of_run (env := Formula.env) (t := Formula.formulaProductionRules) (n := 12) (by rw [this]; intro h; cases h)
  rw [this] at h
  exact h

/-- A rule that takes two ASTs and puts the first of them. -/
def dropSecond : Sem := fun c =>
  match c.slice with
  | none => .panic .nilDeref
  | some s =>
    if c.pos + 2 ≤ s.items.length then .ok ({ c with pos := c.pos + 2, stack := [Ast.zero] }, none)
    else .ok ({ c with status := .unmatched }, none)

/-- A check for a single AST. -/
def isSingle : Sem := fun c =>
  match c.slice with
  | none => .panic .nilDeref
  | some s => .ok ({ c with status := if s.items.length = 1 then .matched else .unmatched }, none)

/-- `C34_terminates` is applicable. -/
example (asts : List Ast) (c : Ctx) : ∃ l e, productionRule (asts.length + 1) [([dropSecond], true)] isSingle c asts = .ok (l, e) := by
  have hx : ∀ asts p, dropSecond (overAsts c.tag asts p) =
      if p + 2 ≤ asts.length then .ok ({ overAsts c.tag asts p with pos := p + 2, stack := [Ast.zero] }, none)
      else .ok ({ overAsts c.tag asts p with status := .unmatched }, none) := by
    intro asts p
    simp [dropSecond, overAsts, astSliceSrc]
  refine C34_terminates _ _ c asts ?_ (fun asts => ⟨_, _, rfl⟩) (C34_shortens _ _ ?_)
  · intro l hl r hr asts p hp
    cases List.mem_singleton.1 hl
    cases List.mem_singleton.1 hr
    rw [hx]
    split
    · exact ⟨_, _, rfl, fun _ _ => by simpa using by omega⟩
    · exact ⟨_, _, rfl, fun _ h => (by cases h)⟩
  · intro l hl r hr asts p o hp h1 h2
    cases List.mem_singleton.1 hl
    cases List.mem_singleton.1 hr
    rw [hx] at h1
    split at h1
    · cases h1; simp
    · cases h1; cases h2

/-- A rule that always matches, taking nothing and putting nothing, runs for ever. -/
example (c : Ctx) (fuel : Nat) :
    productionRule fuel [([fun c => .ok (c, none)], false)] (fun c => .ok ({ c with status := .unmatched }, none)) c [Ast.zero] = .timeout := by
  refine C34_diverges _ _ c _ ⟨[], _, _, [], rfl, fun l hl => (by cases hl), 0, by simp, ?_, ?_⟩ ⟨_, _, rfl, fun h => (by cases h.2)⟩ fuel
  · exact .rewrite (pre := []) (post := []) (o := overAsts c.tag [Ast.zero] 0) rfl (fun r hr => (by cases hr)) rfl rfl (by simp [overAsts])
  · intro q _ h; simp at h

end Takenoco
