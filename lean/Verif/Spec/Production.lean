import Verif.Spec.Peg
import Verif.Model.Transformers
/-
Specification of rewriting by production rules.
-/
namespace Takenoco.Spec

/-- The context for parsing the list of ASTs `asts` from index `p` on: nothing parsed yet. -/
def overAsts (tag : Value) (asts : List Ast) (p : Nat) : Ctx :=
  { str := [], slice := some (astSliceSrc asts), pos := p, len := 0, qty := 0, stack := [], status := .matched, cls := "", tag := tag }

/-- None of the rules applies at index `p` (and none fails). -/
def Inapplicable (rules : List Sem) (tag : Value) (asts : List Ast) (p : Nat) : Prop :=
  ∀ r ∈ rules, ∃ o, r (overAsts tag asts p) = .ok (o, none) ∧ o.status ≠ .matched

/-- The first rule, in the order given, that does not leave index `p` alone fails (`.error`), or it matches the
ASTs from `p` to some index; these are replaced by what the rule has produced (`.ok`). -/
inductive AppliesAt (rules : List Sem) (tag : Value) (asts : List Ast) (p : Nat) : Except Err (List Ast) → Prop where
  | rewrite {pre post : List Sem} {r : Sem} {o : Ctx} : rules = pre ++ r :: post → Inapplicable pre tag asts p →
      r (overAsts tag asts p) = .ok (o, none) → o.status = .matched → o.pos ≤ asts.length →
      AppliesAt rules tag asts p (.ok (asts.take p ++ o.stack ++ asts.drop o.pos))
  | fail {pre post : List Sem} {r : Sem} {o : Ctx} {e : Err} : rules = pre ++ r :: post → Inapplicable pre tag asts p →
      r (overAsts tag asts p) = .ok (o, some e) → AppliesAt rules tag asts p (.error e)

/-- No rule of any of the levels applies anywhere. -/
def Idle (levels : List (List Sem × Bool)) (tag : Value) (asts : List Ast) : Prop :=
  ∀ l ∈ levels, ∀ p, p ≤ asts.length → Inapplicable l.1 tag asts p

/-- One rewriting step: at the first level with a rule that applies somewhere, at the leftmost index (rightmost, if
the level says so) where one applies. -/
def ProdStep (levels : List (List Sem × Bool)) (tag : Value) (asts : List Ast) (r : Except Err (List Ast)) : Prop :=
  ∃ pre rules rtol post, levels = pre ++ (rules, rtol) :: post ∧ Idle pre tag asts ∧
    ∃ p, p ≤ asts.length ∧ AppliesAt rules tag asts p r ∧
      ∀ q, q ≤ asts.length → (if rtol then p < q else q < p) → Inapplicable rules tag asts q

/-- The check parser accepts the list of ASTs. -/
def Accepts (check : Sem) (tag : Value) (asts : List Ast) : Prop :=
  ∃ o, check (overAsts tag asts 0) = .ok (o, none) ∧ o.status = .matched

/-- The check parser returns without accepting. -/
def Declines (check : Sem) (tag : Value) (asts : List Ast) : Prop :=
  ∃ o e, check (overAsts tag asts 0) = .ok (o, e) ∧ ¬ (e = none ∧ o.status = .matched)

/-- `Produces levels check tag asts r`: rewriting `asts` until the check accepts ends in a list or in an error. -/
inductive Produces (levels : List (List Sem × Bool)) (check : Sem) (tag : Value) : List Ast → Except Err (List Ast) → Prop where
  | idle {asts : List Ast} : Idle levels tag asts → Accepts check tag asts → Produces levels check tag asts (.ok asts)
  | stuck {asts : List Ast} : Idle levels tag asts → Declines check tag asts →
      Produces levels check tag asts (.error (.msg "Production rules are not matched."))
  | last {asts asts' : List Ast} : ProdStep levels tag asts (.ok asts') → Accepts check tag asts' →
      Produces levels check tag asts (.ok asts')
  | next {asts asts' : List Ast} {r : Except Err (List Ast)} : ProdStep levels tag asts (.ok asts') → Declines check tag asts' →
      Produces levels check tag asts' r → Produces levels check tag asts r
  | fail {asts : List Ast} {e : Err} : ProdStep levels tag asts (.error e) → Produces levels check tag asts (.error e)

/-- The first rule, in the order given, that does not leave index `p` alone panics, or it matches up to an index beyond
the end of the list. -/
inductive PanicsAt (rules : List Sem) (tag : Value) (asts : List Ast) (p : Nat) : Panic → Prop where
  | rule {pre post : List Sem} {r : Sem} {x : Panic} : rules = pre ++ r :: post → Inapplicable pre tag asts p →
      r (overAsts tag asts p) = .panic x → PanicsAt rules tag asts p x
  | beyond {pre post : List Sem} {r : Sem} {o : Ctx} : rules = pre ++ r :: post → Inapplicable pre tag asts p →
      r (overAsts tag asts p) = .ok (o, none) → o.status = .matched → asts.length < o.pos → PanicsAt rules tag asts p .index

/-- A rewriting step ends in a panic. -/
def StepPanics (levels : List (List Sem × Bool)) (tag : Value) (asts : List Ast) (x : Panic) : Prop :=
  ∃ pre rules rtol post, levels = pre ++ (rules, rtol) :: post ∧ Idle pre tag asts ∧
    ∃ p, p ≤ asts.length ∧ PanicsAt rules tag asts p x ∧
      ∀ q, q ≤ asts.length → (if rtol then p < q else q < p) → Inapplicable rules tag asts q

/-- `ProdPanics levels check tag asts x`: rewriting `asts` until the check accepts ends in the panic `x`, raised by a rule or
by the check. -/
inductive ProdPanics (levels : List (List Sem × Bool)) (check : Sem) (tag : Value) : List Ast → Panic → Prop where
  | step {asts : List Ast} {x : Panic} : StepPanics levels tag asts x → ProdPanics levels check tag asts x
  | idle {asts : List Ast} {x : Panic} : Idle levels tag asts → check (overAsts tag asts 0) = .panic x →
      ProdPanics levels check tag asts x
  | check {asts asts' : List Ast} {x : Panic} : ProdStep levels tag asts (.ok asts') → check (overAsts tag asts' 0) = .panic x →
      ProdPanics levels check tag asts x
  | next {asts asts' : List Ast} {x : Panic} : ProdStep levels tag asts (.ok asts') → Declines check tag asts' →
      ProdPanics levels check tag asts' x → ProdPanics levels check tag asts x

end Takenoco.Spec
