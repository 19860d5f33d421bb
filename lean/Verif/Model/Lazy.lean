import Verif.Model.Gram
/-
The engine once more, with the variables in which `Indirect` keeps its parsers: base/parsers.go:11-20.

Every `Indirect` parser that is ever made has a number, and a variable `parser`. The functions passed to `Indirect` build new parsers, and with
them new `Indirect` parsers with variables of their own, when they are called. In the other models `Indirect` calls its function each time.

Simplification: a function passed to `Indirect` returns a parser (not nil), does not panic, and does not parse.
-/
namespace Takenoco
namespace Lazy

/-- The variables `parser` of all `Indirect` parsers (parsers.go:13), and how often functions passed to `Indirect` have been called. -/
structure Cells where
  calls : Nat
  cell : Nat → Option Gram

/-- A computation that may use and set these variables. -/
def M (α : Type) := Cells → Out α × Cells

/-- Sequential execution; a panic ends it. -/
def M.bind {α β : Type} (x : M α) (f : α → M β) : M β := fun s =>
  match x s with
  | (.ok a, s) => f a s
  | (.panic p, s) => (.panic p, s)
  | (.timeout, s) => (.timeout, s)

instance : Monad M where
  pure a := fun s => (.ok a, s)
  bind := M.bind

/-- A computation that does not use them. -/
def lift {α : Type} (x : Out α) : M α := fun s => (x, s)

/-- A parser, and a transformer. -/
abbrev Parser := Ctx → M PRes
abbrev Transformer := Ctx → List Ast → M (List Ast × Option Err)

/-- `LightBaseParser`: base.go:4-15. -/
def light (cls : String) (fn : Parser) : Parser := fun ctx => do
  let (out, err) ← fn ctx
  let out := fixStatus out err
  let out := if out.status = .matched then { out with qty := 1 } else out
  return ({ out with cls := cls }, err)

/-- The `CHILDREN` loop: base.go:65-92. -/
def childLoop (thereExists : Bool) : List Parser → Nat → Ctx → M ChildEnd
  | [], k, out => return .fell k out
  | c :: cs, k, prev => do
    let (o, err) ← c prev
    let out := fixStatus o err
    match out.status with
    | .error => return .ret out err
    | .unmatched => if thereExists then childLoop thereExists cs k prev else return .unmatched
    | .matched => if thereExists then return .fell (k + 1) out else childLoop thereExists cs (k + 1) out

/-- One iteration of the `PARENT` loop: base.go:61-117. -/
def iteration (fn : Option ImplFn) (thereExists : Bool) (children : List Parser) (bottom count : Nat) (saved : Ctx) : M IterEnd := do
  match ← childLoop thereExists children 0 saved with
  | .ret o e => return .ret o e
  | .unmatched => return .brk saved
  | .fell k out =>
    if thereExists ∧ 0 < children.length ∧ k = 0 then return .brk saved
    else
      let (out, err) ← lift (callFn fn k bottom { out with qty := count })
      match out.status with
      | .error => return .ret out err
      | .unmatched => return .brk saved
      | .matched => return .next out

/-- The `PARENT` loop: base.go:60-118. -/
def parentLoop (unbounded : Bool) (body : Nat → Ctx → M IterEnd) : Nat → Nat → Ctx → M LoopEnd
  | 0, count, out => if unbounded then lift .timeout else return .done count out
  | k + 1, count, out => do
    match ← body count out with
    | .ret o e => return .ret o e
    | .brk o => return .done count o
    | .next o => parentLoop unbounded body k (count + 1) o

/-- `for _, transform := range tr`: base.go:155-161, match.go:28-34. -/
def applyTrs (ctx : Ctx) : List Transformer → List Ast → M (List Ast × Option Err)
  | [], asts => return (asts, none)
  | t :: ts, asts => do
    match ← t ctx asts with
    | (asts', none) => applyTrs ctx ts asts'
    | (asts', some e) => return (asts', some e)

/-- base.go:153-165. -/
def applyTransforms (tr : Option (List Transformer)) (ctx out : Ctx) : M PRes :=
  match tr with
  | none => return (out, none)
  | some ts =>
    if out.stack.length < ctx.stack.length then lift (.panic .index)
    else do
      match ← applyTrs ctx ts (out.stack.drop ctx.stack.length) with
      | (_, some e) => return ({ out with status := .error }, some e)
      | (asts, none) => return ({ out with stack := out.stack.take ctx.stack.length ++ asts }, none)

/-- base.go:120-165. -/
def afterLoop (f : Flags) (fn : Option ImplFn) (tr : Option (List Transformer)) (ctx : Ctx) (count : Nat) (out : Ctx) : M PRes :=
  let out := negateStatus f.negative (checkMin f.qty.min count out)
  if out.status ≠ .matched then return (out, none)
  else do
    let (out, _) ← lift (callFn fn (-1) ctx.stack.length { out with qty := count })
    if out.status ≠ .matched then return (out, none)
    else applyTransforms tr ctx (if f.rewind then ctx else out)

/-- `BaseParser`: base.go:26-166. -/
def base (fuel : Nat) (cls : String) (fn : Option ImplFn) (props : List PropItem) (children : List Parser)
    (tr : Option (List Transformer)) : Parser := fun ctx0 => do
  let f := readProps props
  let ctx := { ctx0 with cls := cls }
  let bottom := ctx.stack.length
  let out := { ctx with status := .matched }
  let unbounded := decide (f.qty.max < 0)
  let iters := if unbounded then fuel else f.qty.max.toNat
  match ← parentLoop unbounded (iteration fn f.thereExists children bottom) iters 0 out with
  | .ret o e => return (o, e)
  | .done count out => afterLoop f fn tr ctx count out

/-- `lookBehindBase`, the loop: parsers.go:131-158. -/
def lookBehindLoop (negative : Bool) (parser : Parser) (ctx : Ctx) : Nat → Int → M PRes
  | 0, _ => return ({ ctx with status := if negative then .matched else .unmatched }, none)
  | k + 1, i =>
    if (ctx.pos : Int) - i < 0 then lookBehindLoop negative parser ctx k (i + 1)
    else do
      match ← parser { ctx with pos := ((ctx.pos : Int) - i).toNat } with
      | (out, some e) => return (out, some e)
      | (out, none) =>
        if out.status = .matched then
          if negative then return ({ out with status := .unmatched }, none) else return (ctx, none)
        else lookBehindLoop negative parser ctx k (i + 1)

/-- `lookBehindBase`: parsers.go:122-160. -/
def lookBehindBase (negative : Bool) (minN maxN : Int) (children : List Parser) : Parser := fun ctx =>
  lookBehindLoop negative (base 0 (if negative then ":base:LookBehindN" else ":base:LookBehind") none [.rewind] children none)
    ctx (maxN - minN + 1).toNat minN

/-- `Match`: match.go:15-44. -/
def matchFn (n : Int) : List ((List Ast → Bool) × List Transformer) → Parser
  | [], ctx => return ({ ctx with len := 0, status := .unmatched }, none)
  | (guard, trs) :: cases, ctx =>
    if guard ctx.stack then
      let ctx := { ctx with len := 0, status := .unmatched }
      let sp : Int := (ctx.stack.length : Int) - n
      if sp < 0 ∨ (ctx.stack.length : Int) < sp then lift (.panic .index)
      else do
        match ← applyTrs ctx trs (ctx.stack.drop sp.toNat) with
        | (_, some e) => return ({ ctx with status := .error }, some e)
        | (asts, none) => return ({ ctx with stack := ctx.stack.take sp.toNat ++ asts, status := .matched }, none)
    else matchFn n cases ctx

/-- production.go:38-62. -/
def tryRules (astCtx : Ctx) (asts : List Ast) (p : Nat) : List Parser → M Search
  | [] => return .noMatch
  | rule :: rules => do
    match ← rule { astCtx with pos := p } with
    | (_, some e) => return .err e
    | (out, none) =>
      if out.status ≠ .matched then tryRules astCtx asts p rules
      else if asts.length < out.pos then lift (.panic .index)
      else return .rewritten (asts.take p ++ out.stack ++ asts.drop out.pos)

/-- production.go:37-63. -/
def tryPositions (astCtx : Ctx) (asts : List Ast) (rules : List Parser) (rtol : Bool) : Nat → Nat → M Search
  | 0, _ => return .noMatch
  | k + 1, i => do
    match ← tryRules astCtx asts (if rtol then asts.length - i else i) rules with
    | .noMatch => tryPositions astCtx asts rules rtol k (i + 1)
    | r => return r

/-- production.go:34-64. -/
def tryPrecedences (tag : Value) (asts : List Ast) : List (List Parser × Bool) → M Search
  | [] => return .noMatch
  | (rules, rtol) :: ps => do
    match ← tryPositions (newObjCtx (astSliceSrc asts) tag) asts rules rtol (asts.length + 1) 0 with
    | .noMatch => tryPrecedences tag asts ps
    | r => return r

/-- production.go:66. -/
def checkHolds (check : Parser) (tag : Value) (asts : List Ast) : M Bool := do
  let (out, err) ← check (newObjCtx (astSliceSrc asts) tag)
  return err.isNone && decide (out.status = .matched)

/-- `ProductionRule`: production.go:29-77. -/
def productionLoop (precs : List (List Parser × Bool)) (check : Parser) (tag : Value) : Nat → List Ast → M (List Ast × Option Err)
  | 0, _ => lift .timeout
  | n + 1, asts => do
    match ← tryPrecedences tag asts precs with
    | .err e => return ([], some e)
    | .noMatch =>
      if ← checkHolds check tag asts then return (asts, none)
      else return ([], some (.msg "Production rules are not matched."))
    | .rewritten asts' =>
      if ← checkHolds check tag asts' then return (asts', none)
      else productionLoop precs check tag n asts'

/-- What functions passed to `Indirect` return: the function with this name, when this many calls have been made. -/
abbrev Maker := Nat → Nat → Gram

/-- A variable is set. -/
def Cells.fill (s : Cells) (a : Nat) (g : Gram) : Cells := { calls := s.calls + 1, cell := fun b => if b = a then some g else s.cell b }

/-- What `Indirect` does: the function is called if the variable is not set (parsers.go:15-17); then the parser in the variable is called (line 18). -/
def kept (mk : Maker) (nameOf : Nat → Nat) (exec : Gram → Parser) (a : Nat) : Parser := fun ctx s =>
  match s.cell a with
  | some g => exec g ctx s
  | none => exec (mk (nameOf a) s.calls) ctx (s.fill a (mk (nameOf a) s.calls))

mutual
/-- Execution of a grammar; `.indirect a` is the `Indirect` parser with the number `a`, made with the function `nameOf a`. -/
def run (mk : Maker) (nameOf : Nat → Nat) : Nat → Gram → Parser
  | 0, _ => fun _ => lift .timeout
  | n + 1, g =>
    match g with
    | .prim p => fun ctx => lift (p ctx)
    | .flatGroup gs => base 0 ":base:FlatGroup" none [] (gs.map (run mk nameOf n)) none
    | .group gs => base 0 ":base:Group" none [] (gs.map (run mk nameOf n)) (some [fun ctx asts => lift (groupingTransform ctx asts)])
    | .first gs => base 0 ":base:First" none [.thereExists] (gs.map (run mk nameOf n)) none
    | .lookAhead gs => base 0 ":base:LookAhead" none [.rewind] (gs.map (run mk nameOf n)) none
    | .lookAheadN gs => base 0 ":base:LookAheadN" none [.rewind, .negative] (gs.map (run mk nameOf n)) none
    | .lookBehind minN maxN gs => lookBehindBase false minN maxN (gs.map (run mk nameOf n))
    | .lookBehindN minN maxN gs => lookBehindBase true minN maxN (gs.map (run mk nameOf n))
    | .repeat t gs => base n ":base:Repeat" none [.times t] (gs.map (run mk nameOf n)) none
    | .trans g trs => base 0 ":base:Trans" none [] [run mk nameOf n g] (if trs.isEmpty then none else some (trs.map (runTr mk nameOf n)))
    | .indirect a => light ":base:Indirect" (kept mk nameOf (run mk nameOf n) a)
    | .match k cases => light "Match" (matchFn k (cases.map fun c => (c.1, c.2.map (runTr mk nameOf n))))
    | .base cls fn props gs tr => base n cls fn props (gs.map (run mk nameOf n)) (tr.map (·.map (runTr mk nameOf n)))

/-- Execution of a transformer. -/
def runTr (mk : Maker) (nameOf : Nat → Nat) : Nat → Tr → Transformer
  | 0, _ => fun _ _ => lift .timeout
  | n + 1, t =>
    match t with
    | .fn f => fun ctx asts => lift (f ctx asts)
    | .production precs check => fun ctx asts =>
      productionLoop (precs.map fun p => (p.1.map (run mk nameOf n), p.2)) (run mk nameOf n check) ctx.tag n asts
end

end Lazy

mutual
/-- The grammar in which the `Indirect` parsers have other names. -/
def Gram.rename (f : Nat → Nat) : Gram → Gram
  | .prim p => .prim p
  | .flatGroup gs => .flatGroup (renameList f gs)
  | .group gs => .group (renameList f gs)
  | .first gs => .first (renameList f gs)
  | .lookAhead gs => .lookAhead (renameList f gs)
  | .lookAheadN gs => .lookAheadN (renameList f gs)
  | .lookBehind minN maxN gs => .lookBehind minN maxN (renameList f gs)
  | .lookBehindN minN maxN gs => .lookBehindN minN maxN (renameList f gs)
  | .repeat t gs => .repeat t (renameList f gs)
  | .trans g trs => .trans (g.rename f) (renameTrs f trs)
  | .indirect a => .indirect (f a)
  | .match n cases => .match n (renameCases f cases)
  | .base cls fn props gs tr => .base cls fn props (renameList f gs) (renameOpt f tr)

/-- The same for a list. -/
def renameList (f : Nat → Nat) : List Gram → List Gram
  | [] => []
  | g :: gs => (g.rename f) :: renameList f gs

/-- The same for a transformer. -/
def Tr.rename (f : Nat → Nat) : Tr → Tr
  | .fn t => .fn t
  | .production precs check => .production (renamePrecs f precs) (check.rename f)

/-- The same for a list of transformers. -/
def renameTrs (f : Nat → Nat) : List Tr → List Tr
  | [] => []
  | t :: ts => (t.rename f) :: renameTrs f ts

/-- The same for the transformers of `BaseParser`. -/
def renameOpt (f : Nat → Nat) : Option (List Tr) → Option (List Tr)
  | none => none
  | some ts => some (renameTrs f ts)

/-- The same for a case of `Match`. -/
def renameCase (f : Nat → Nat) : (List Ast → Bool) × List Tr → (List Ast → Bool) × List Tr
  | (guard, ts) => (guard, renameTrs f ts)

/-- The same for the cases of `Match`. -/
def renameCases (f : Nat → Nat) : List ((List Ast → Bool) × List Tr) → List ((List Ast → Bool) × List Tr)
  | [] => []
  | c :: cs => renameCase f c :: renameCases f cs

/-- The same for a precedence of `ProductionRule`. -/
def renamePrec (f : Nat → Nat) : List Gram × Bool → List Gram × Bool
  | (gs, rtol) => (renameList f gs, rtol)

/-- The same for the precedences of `ProductionRule`. -/
def renamePrecs (f : Nat → Nat) : List (List Gram × Bool) → List (List Gram × Bool)
  | [] => []
  | p :: ps => renamePrec f p :: renamePrecs f ps
end

end Takenoco
