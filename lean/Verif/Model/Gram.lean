import Verif.Model.Production
import Verif.Model.StrTransformers
/-
Grammars built with takenoco's constructors, as syntax, and their execution. In Go a grammar is a tree
of closures that may refer to itself through `Indirect`; here the tree is a value of type `Gram` and the
recursion goes through an environment of named grammars. `run` maps every constructor to the Layer A
model of the Go constructor of the same name; fuel bounds the depth of the tree and of the recursion,
and the number of iterations of the loops without bound.
-/
namespace Takenoco

mutual
/-- A grammar: an expression over takenoco's constructors. -/
inductive Gram where
  /-- any parser without sub-parsers: a library terminal or a user-written `ParserFn` -/
  | prim (p : Sem)
  | flatGroup (gs : List Gram)
  | group (gs : List Gram)
  | first (gs : List Gram)
  | lookAhead (gs : List Gram)
  | lookAheadN (gs : List Gram)
  | lookBehind (minN maxN : Int) (gs : List Gram)
  | lookBehindN (minN maxN : Int) (gs : List Gram)
  | repeat (times : Times) (gs : List Gram)
  | trans (g : Gram) (trs : List Tr)
  /-- `Indirect(fn)`; the name stands for the function `fn` -/
  | indirect (name : Nat)
  | match (n : Int) (cases : List ((List Ast → Bool) × List Tr))
  /-- a direct call of `BaseParser` -/
  | base (cls : String) (fn : Option ImplFn) (props : List PropItem) (gs : List Gram)
      (tr : Option (List Tr))

/-- A transformer: a function, or `ProductionRule`, which contains grammars. -/
inductive Tr where
  | fn (t : TSem)
  | production (precs : List (List Gram × Bool)) (check : Gram)
end

/-- What the functions passed to `Indirect` return. -/
abbrev Env := Nat → Gram

mutual
/-- Execution of a grammar. -/
def run (env : Env) : Nat → Gram → Sem
  | 0, _ => fun _ => .timeout
  | n + 1, g =>
    match g with
    | .prim p => p
    | .flatGroup gs => flatGroup (gs.map (run env n))
    | .group gs => group (gs.map (run env n))
    | .first gs => first (gs.map (run env n))
    | .lookAhead gs => lookAhead (gs.map (run env n))
    | .lookAheadN gs => lookAheadN (gs.map (run env n))
    | .lookBehind minN maxN gs => lookBehind minN maxN (gs.map (run env n))
    | .lookBehindN minN maxN gs => lookBehindN minN maxN (gs.map (run env n))
    | .repeat t gs => repeatP n t (gs.map (run env n))
    | .trans g trs => trans (run env n g) (trs.map (runTr env n))
    | .indirect name => indirect (run env n (env name))
    | .match k cases => matchP k (cases.map fun c => (c.1, c.2.map (runTr env n)))
    | .base cls fn props gs tr =>
      baseParser n cls fn props (gs.map (run env n)) (tr.map (·.map (runTr env n)))

/-- Execution of a transformer. -/
def runTr (env : Env) : Nat → Tr → TSem
  | 0, _ => fun _ _ => .timeout
  | n + 1, t =>
    match t with
    | .fn f => f
    | .production precs check =>
      productionRule n (precs.map fun p => (p.1.map (run env n), p.2)) (run env n check)
end

namespace Gram
/-- `Once`: base/parsers.go:183-185. -/
abbrev one (gs : List Gram) : Gram := .repeat qtyOnce gs
/-- `ZeroOrOnce`: base/parsers.go:188-190. -/
abbrev opt (gs : List Gram) : Gram := .repeat qtyZeroOrOnce gs
/-- `ZeroOrMoreTimes`: base/parsers.go:193-195. -/
abbrev star (gs : List Gram) : Gram := .repeat qtyZeroOrMoreTimes gs
/-- `OneOrMoreTimes`: base/parsers.go:198-200. -/
abbrev plus (gs : List Gram) : Gram := .repeat qtyOneOrMoreTimes gs
/-- `erase`: extra/extra.go:14-16 and the same function in the examples. -/
abbrev erased (g : Gram) : Gram := .trans g [.fn erase]
end Gram

/-- An environment for grammars that do not use `Indirect`. -/
def noEnv : Env := fun _ => .prim unmatchedP

end Takenoco
