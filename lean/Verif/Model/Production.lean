import Verif.Model.ObjParsers
/-
Layer A model of /repo/base/production.go.
-/
namespace Takenoco

/-- How the search of one round ends. -/
inductive Search where
  | noMatch
  | rewritten (asts : List Ast)
  | err (e : Err)

/-- The innermost loop over `precedence.Rules` at position `p`: production.go:38-62. `astCtx` is the
fresh context over `asts`. A result that is not matched (even with status error, when `err` is nil) is
skipped. -/
def tryRules (astCtx : Ctx) (asts : List Ast) (p : Nat) : List Sem → Out Search
  | [] => .ok .noMatch
  | rule :: rules =>
    match rule { astCtx with pos := p } with
    | .panic x => .panic x
    | .timeout => .timeout
    | .ok (_, some e) => .ok (.err e)
    | .ok (out, none) =>
      if out.status ≠ .matched then tryRules astCtx asts p rules
      else if asts.length < out.pos then .panic .index
      else .ok (.rewritten (asts.take p ++ out.stack ++ asts.drop out.pos))

/-- The loop `for i := 0; i <= asts.Len(); i++`: production.go:37-63. The number is the count of
remaining values of `i`. -/
def tryPositions (astCtx : Ctx) (asts : List Ast) (rules : List Sem) (rtol : Bool) :
    Nat → Nat → Out Search
  | 0, _ => .ok .noMatch
  | k + 1, i =>
    match tryRules astCtx asts (if rtol then asts.length - i else i) rules with
    | .ok .noMatch => tryPositions astCtx asts rules rtol k (i + 1)
    | r => r

/-- The loop over `precedences`: production.go:34-64. A precedence is `(Rules, Rtol)`. -/
def tryPrecedences (tag : Value) (asts : List Ast) : List (List Sem × Bool) → Out Search
  | [] => .ok .noMatch
  | (rules, rtol) :: ps =>
    match tryPositions (newObjCtx (astSliceSrc asts) tag) asts rules rtol (asts.length + 1) 0 with
    | .ok .noMatch => tryPrecedences tag asts ps
    | r => r

/-- `check(*newContext(asts, ctx.Tag))` succeeds: production.go:66. An error of `check` counts as
failure. -/
def checkHolds (check : Sem) (tag : Value) (asts : List Ast) : Out Bool :=
  match check (newObjCtx (astSliceSrc asts) tag) with
  | .panic x => .panic x
  | .timeout => .timeout
  | .ok (out, err) => .ok (err.isNone && decide (out.status = .matched))

/-- The outer loop `for { ... }`: production.go:31-74, with fuel. -/
def productionLoop (precs : List (List Sem × Bool)) (check : Sem) (tag : Value) :
    Nat → List Ast → Out (List Ast × Option Err)
  | 0, _ => .timeout
  | n + 1, asts =>
    match tryPrecedences tag asts precs with
    | .panic x => .panic x
    | .timeout => .timeout
    | .ok (.err e) => .ok ([], some e)
    | .ok .noMatch =>
      match checkHolds check tag asts with
      | .panic x => .panic x
      | .timeout => .timeout
      | .ok true => .ok (asts, none)
      | .ok false => .ok ([], some (.msg "Production rules are not matched."))
    | .ok (.rewritten asts') =>
      match checkHolds check tag asts' with
      | .panic x => .panic x
      | .timeout => .timeout
      | .ok true => .ok (asts', none)
      | .ok false => productionLoop precs check tag n asts'

/-- `ProductionRule`: production.go:29-77. -/
def productionRule (fuel : Nat) (precs : List (List Sem × Bool)) (check : Sem) : TSem := fun ctx asts =>
  productionLoop precs check ctx.tag fuel asts

end Takenoco
