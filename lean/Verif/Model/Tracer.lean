import Verif.Model.Gram
/-
Model of /repo/base/tracer.go and of the places in /repo/base/base.go where parsers are wrapped for tracing: the global
state of the tracer while parsers are being built, and the engine with a record of the calls of the tracer's callbacks.

The engine is the one of `Verif.Model.Base`, `Parsers` and `Production` once more, in a state monad. Assumption: the callbacks of a
`ParserTracer` only look at the context they get a pointer to, do not panic and do not build parsers.
-/
namespace Takenoco
namespace Trace

/-- What a wrapped parser knows: tracer.go:63, the arguments of `tracer`. Tracers (`ParserTracer` values) are numbered. -/
structure Info where
  pt : Nat
  scope : String
  no : Nat
  cls : String
  deriving DecidableEq, Repr

/-- A call of a callback of a `ParserTracer`: tracer.go:4-11. -/
inductive Event where
  | before (i : Info) (ctx : Ctx)
  | after (i : Info) (ctx : Ctx) (err : Option Err)
  | panic (i : Info) (ctx : Ctx) (r : Panic)

/-- What happens while parsing: the calls of the tracers' callbacks so far, and the number of calls of parsers made by
`Indirect` so far. -/
structure Log where
  clock : Nat
  events : List Event

/-- A computation that may call the tracers' callbacks. -/
def M (α : Type) := Log → Out α × Log

/-- Sequential execution; a panic ends it. -/
def M.bind {α β : Type} (x : M α) (f : α → M β) : M β := fun s =>
  match x s with
  | (.ok a, s) => f a s
  | (.panic p, s) => (.panic p, s)
  | (.timeout, s) => (.timeout, s)

instance : Monad M where
  pure a := fun s => (.ok a, s)
  bind := M.bind

/-- A computation without calls of a tracer. -/
def lift {α : Type} (x : Out α) : M α := fun s => (x, s)

/-- A parser, and a transformer, that may call the tracers' callbacks. -/
abbrev Parser := Ctx → M PRes
abbrev Transformer := Ctx → List Ast → M (List Ast × Option Err)

/-- `tracer`: tracer.go:64-79. The deferred function gets the context of the call, because the assignment to `ctx` does not
happen when the parser panics. -/
def tracer (i : Info) (parser : Parser) : Parser := fun ctx s =>
  match parser ctx { s with events := s.events ++ [.before i ctx] } with
  | (.ok (out, err), s) => (.ok (out, err), { s with events := s.events ++ [.after i out err] })
  | (.panic r, s) => (.panic r, { s with events := s.events ++ [.panic i ctx r] })
  | (.timeout, s) => (.timeout, s)

/-- `if traceEnabled { return tracer(…) } else { return parser }`: base.go:17-22, 168-173, decided when the parser is
built. -/
def wrap : Option Info → Parser → Parser
  | none, p => p
  | some i, p => tracer i p

/-- `LightBaseParser`: base.go:4-15. -/
def light (cls : String) (fn : Parser) : Parser := fun ctx => do
  let (out, err) ← fn ctx
  let out := fixStatus out err
  let out := if out.status = .matched then { out with qty := 1 } else out
  return ({ out with cls := cls }, err)

/-- The `CHILDREN` loop: base.go:65-92. -/
def childLoop (thereExists : Bool) : List Parser → Nat → Ctx → M ChildEnd
  | [], k, out => return .fell k out
  | c :: cs, k, prev => do
    let (o, err) ← c prev
    let out := fixStatus o err
    match out.status with
    | .error => return .ret out err
    | .unmatched => if thereExists then childLoop thereExists cs k prev else return .unmatched
    | .matched => if thereExists then return .fell (k + 1) out else childLoop thereExists cs (k + 1) out

/-- One iteration of the `PARENT` loop: base.go:61-117. -/
def iteration (fn : Option ImplFn) (thereExists : Bool) (children : List Parser) (bottom count : Nat) (saved : Ctx) : M IterEnd := do
  match ← childLoop thereExists children 0 saved with
  | .ret o e => return .ret o e
  | .unmatched => return .brk saved
  | .fell k out =>
    if thereExists ∧ 0 < children.length ∧ k = 0 then return .brk saved
    else
      let (out, err) ← lift (callFn fn k bottom { out with qty := count })
      match out.status with
      | .error => return .ret out err
      | .unmatched => return .brk saved
      | .matched => return .next out

/-- The `PARENT` loop: base.go:60-118. -/
def parentLoop (unbounded : Bool) (body : Nat → Ctx → M IterEnd) : Nat → Nat → Ctx → M LoopEnd
  | 0, count, out => if unbounded then lift .timeout else return .done count out
  | k + 1, count, out => do
    match ← body count out with
    | .ret o e => return .ret o e
    | .brk o => return .done count o
    | .next o => parentLoop unbounded body k (count + 1) o

/-- `for _, transform := range tr`: base.go:155-161, match.go:28-34. -/
def applyTrs (ctx : Ctx) : List Transformer → List Ast → M (List Ast × Option Err)
  | [], asts => return (asts, none)
  | t :: ts, asts => do
    match ← t ctx asts with
    | (asts', none) => applyTrs ctx ts asts'
    | (asts', some e) => return (asts', some e)

/-- base.go:153-165. -/
def applyTransforms (tr : Option (List Transformer)) (ctx out : Ctx) : M PRes :=
  match tr with
  | none => return (out, none)
  | some ts =>
    if out.stack.length < ctx.stack.length then lift (.panic .index)
    else do
      match ← applyTrs ctx ts (out.stack.drop ctx.stack.length) with
      | (_, some e) => return ({ out with status := .error }, some e)
      | (asts, none) => return ({ out with stack := out.stack.take ctx.stack.length ++ asts }, none)

/-- base.go:120-165. -/
def afterLoop (f : Flags) (fn : Option ImplFn) (tr : Option (List Transformer)) (ctx : Ctx) (count : Nat) (out : Ctx) : M PRes :=
  let out := negateStatus f.negative (checkMin f.qty.min count out)
  if out.status ≠ .matched then return (out, none)
  else do
    let (out, _) ← lift (callFn fn (-1) ctx.stack.length { out with qty := count })
    if out.status ≠ .matched then return (out, none)
    else applyTransforms tr ctx (if f.rewind then ctx else out)

/-- `BaseParser`: base.go:26-166. -/
def base (fuel : Nat) (cls : String) (fn : Option ImplFn) (props : List PropItem) (children : List Parser)
    (tr : Option (List Transformer)) : Parser := fun ctx0 => do
  let f := readProps props
  let ctx := { ctx0 with cls := cls }
  let bottom := ctx.stack.length
  let out := { ctx with status := .matched }
  let unbounded := decide (f.qty.max < 0)
  let iters := if unbounded then fuel else f.qty.max.toNat
  match ← parentLoop unbounded (iteration fn f.thereExists children bottom) iters 0 out with
  | .ret o e => return (o, e)
  | .done count out => afterLoop f fn tr ctx count out

/-- `lookBehindBase`, the loop: parsers.go:131-158. -/
def lookBehindLoop (negative : Bool) (parser : Parser) (ctx : Ctx) : Nat → Int → M PRes
  | 0, _ => return ({ ctx with status := if negative then .matched else .unmatched }, none)
  | k + 1, i =>
    if (ctx.pos : Int) - i < 0 then lookBehindLoop negative parser ctx k (i + 1)
    else do
      match ← parser { ctx with pos := ((ctx.pos : Int) - i).toNat } with
      | (out, some e) => return (out, some e)
      | (out, none) =>
        if out.status = .matched then
          if negative then return ({ out with status := .unmatched }, none) else return (ctx, none)
        else lookBehindLoop negative parser ctx k (i + 1)

/-- `lookBehindBase`: parsers.go:122-160. Only the inner parser is made by `BaseParser`, so only it is wrapped. -/
def lookBehindBase (i : Option Info) (negative : Bool) (minN maxN : Int) (children : List Parser) : Parser := fun ctx =>
  lookBehindLoop negative
    (wrap i (base 0 (if negative then ":base:LookBehindN" else ":base:LookBehind") none [.rewind] children none))
    ctx (maxN - minN + 1).toNat minN

/-- `Match`: match.go:15-44. -/
def matchFn (n : Int) : List ((List Ast → Bool) × List Transformer) → Parser
  | [], ctx => return ({ ctx with len := 0, status := .unmatched }, none)
  | (guard, trs) :: cases, ctx =>
    if guard ctx.stack then
      let ctx := { ctx with len := 0, status := .unmatched }
      let sp : Int := (ctx.stack.length : Int) - n
      if sp < 0 ∨ (ctx.stack.length : Int) < sp then lift (.panic .index)
      else do
        match ← applyTrs ctx trs (ctx.stack.drop sp.toNat) with
        | (_, some e) => return ({ ctx with status := .error }, some e)
        | (asts, none) => return ({ ctx with stack := ctx.stack.take sp.toNat ++ asts, status := .matched }, none)
    else matchFn n cases ctx

/-- production.go:38-62. -/
def tryRules (astCtx : Ctx) (asts : List Ast) (p : Nat) : List Parser → M Search
  | [] => return .noMatch
  | rule :: rules => do
    match ← rule { astCtx with pos := p } with
    | (_, some e) => return .err e
    | (out, none) =>
      if out.status ≠ .matched then tryRules astCtx asts p rules
      else if asts.length < out.pos then lift (.panic .index)
      else return .rewritten (asts.take p ++ out.stack ++ asts.drop out.pos)

/-- production.go:37-63. -/
def tryPositions (astCtx : Ctx) (asts : List Ast) (rules : List Parser) (rtol : Bool) : Nat → Nat → M Search
  | 0, _ => return .noMatch
  | k + 1, i => do
    match ← tryRules astCtx asts (if rtol then asts.length - i else i) rules with
    | .noMatch => tryPositions astCtx asts rules rtol k (i + 1)
    | r => return r

/-- production.go:34-64. -/
def tryPrecedences (tag : Value) (asts : List Ast) : List (List Parser × Bool) → M Search
  | [] => return .noMatch
  | (rules, rtol) :: ps => do
    match ← tryPositions (newObjCtx (astSliceSrc asts) tag) asts rules rtol (asts.length + 1) 0 with
    | .noMatch => tryPrecedences tag asts ps
    | r => return r

/-- production.go:66. -/
def checkHolds (check : Parser) (tag : Value) (asts : List Ast) : M Bool := do
  let (out, err) ← check (newObjCtx (astSliceSrc asts) tag)
  return err.isNone && decide (out.status = .matched)

/-- `ProductionRule`: production.go:29-77. -/
def productionLoop (precs : List (List Parser × Bool)) (check : Parser) (tag : Value) : Nat → List Ast → M (List Ast × Option Err)
  | 0, _ => lift .timeout
  | n + 1, asts => do
    match ← tryPrecedences tag asts precs with
    | .err e => return ([], some e)
    | .noMatch =>
      if ← checkHolds check tag asts then return (asts, none)
      else return ([], some (.msg "Production rules are not matched."))
    | .rewritten asts' =>
      if ← checkHolds check tag asts' then return (asts', none)
      else productionLoop precs check tag n asts'

end Trace

open Trace

mutual
/-- A grammar as in `Gram`, with `DebugTrace`. The first argument of a constructor says whether the parser is wrapped for
tracing; nothing is wrapped in a grammar as it is written, and `Trace.build` marks what the constructors wrap. -/
inductive TGram where
  /-- a parser without sub-parsers; `cls` is `none` if it is not made by `LightBaseParser` -/
  | prim (i : Option Info) (cls : Option String) (p : Sem)
  | flatGroup (i : Option Info) (gs : List TGram)
  | group (i : Option Info) (gs : List TGram)
  | first (i : Option Info) (gs : List TGram)
  | lookAhead (i : Option Info) (gs : List TGram)
  | lookAheadN (i : Option Info) (gs : List TGram)
  | lookBehind (i : Option Info) (minN maxN : Int) (gs : List TGram)
  | lookBehindN (i : Option Info) (minN maxN : Int) (gs : List TGram)
  | repeat (i : Option Info) (times : Times) (gs : List TGram)
  | trans (i : Option Info) (g : TGram) (trs : List TTr)
  | indirect (i : Option Info) (name : Nat)
  | match (i : Option Info) (n : Int) (cases : List ((List Ast → Bool) × List TTr))
  | base (i : Option Info) (cls : String) (fn : Option ImplFn) (props : List PropItem) (gs : List TGram) (tr : Option (List TTr))
  /-- `DebugTrace(scope, pt)(gs...)` -/
  | debug (i : Option Info) (scope : String) (pt : Nat) (gs : List TGram)

/-- A transformer, as in `Tr`. -/
inductive TTr where
  | fn (t : TSem)
  | production (precs : List (List TGram × Bool)) (check : TGram)
end

/-- What the functions passed to `Indirect` return. They are called while parsing; which parsers of the result are wrapped may
differ from call to call. -/
abbrev TEnv := Nat → Nat → TGram

mutual
/-- Execution of a grammar with tracing. -/
def TGram.run (env : TEnv) : Nat → TGram → Trace.Parser
  | 0, _ => fun _ => lift .timeout
  | n + 1, g =>
    match g with
    | .prim i _ p => wrap i fun ctx => lift (p ctx)
    | .flatGroup i gs => wrap i (base 0 ":base:FlatGroup" none [] (gs.map (TGram.run env n)) none)
    | .group i gs => wrap i (base 0 ":base:Group" none [] (gs.map (TGram.run env n)) (some [fun ctx asts => lift (groupingTransform ctx asts)]))
    | .first i gs => wrap i (base 0 ":base:First" none [.thereExists] (gs.map (TGram.run env n)) none)
    | .lookAhead i gs => wrap i (base 0 ":base:LookAhead" none [.rewind] (gs.map (TGram.run env n)) none)
    | .lookAheadN i gs => wrap i (base 0 ":base:LookAheadN" none [.rewind, .negative] (gs.map (TGram.run env n)) none)
    | .lookBehind i minN maxN gs => Trace.lookBehindBase i false minN maxN (gs.map (TGram.run env n))
    | .lookBehindN i minN maxN gs => Trace.lookBehindBase i true minN maxN (gs.map (TGram.run env n))
    | .repeat i t gs => wrap i (base n ":base:Repeat" none [.times t] (gs.map (TGram.run env n)) none)
    | .trans i g trs => wrap i (base 0 ":base:Trans" none [] [TGram.run env n g]
        (if trs.isEmpty then none else some (trs.map (TTr.run env n))))
    | .indirect i name => wrap i (light ":base:Indirect" fun ctx s => TGram.run env n (env name s.clock) ctx { s with clock := s.clock + 1 })
    | .match i k cases => wrap i (light "Match" (Trace.matchFn k (cases.map fun c => (c.1, c.2.map (TTr.run env n)))))
    | .base i cls fn props gs tr => wrap i (base n cls fn props (gs.map (TGram.run env n)) (tr.map (·.map (TTr.run env n))))
    | .debug i _ _ gs => wrap i (base n ":Base:DebugTrace" none [] (gs.map (TGram.run env n)) none)

/-- Execution of a transformer with tracing. -/
def TTr.run (env : TEnv) : Nat → TTr → Trace.Transformer
  | 0, _ => fun _ _ => lift .timeout
  | n + 1, t =>
    match t with
    | .fn f => fun ctx asts => lift (f ctx asts)
    | .production precs check => fun ctx asts =>
      Trace.productionLoop (precs.map fun p => (p.1.map (TGram.run env n), p.2)) (TGram.run env n check) ctx.tag n asts
end

mutual
/-- The grammar without tracing: what the same Go code builds when nothing is traced. -/
def TGram.plain : TGram → Gram
  | .prim _ _ p => .prim p
  | .flatGroup _ gs => .flatGroup (plainList gs)
  | .group _ gs => .group (plainList gs)
  | .first _ gs => .first (plainList gs)
  | .lookAhead _ gs => .lookAhead (plainList gs)
  | .lookAheadN _ gs => .lookAheadN (plainList gs)
  | .lookBehind _ minN maxN gs => .lookBehind minN maxN (plainList gs)
  | .lookBehindN _ minN maxN gs => .lookBehindN minN maxN (plainList gs)
  | .repeat _ t gs => .repeat t (plainList gs)
  | .trans _ g trs => .trans g.plain (plainTrs trs)
  | .indirect _ name => .indirect name
  | .match _ n cases => .match n (plainCases cases)
  | .base _ cls fn props gs tr => .base cls fn props (plainList gs) (plainOpt tr)
  | .debug _ _ _ gs => .base ":Base:DebugTrace" none [] (plainList gs) none

/-- The same for a list. -/
def plainList : List TGram → List Gram
  | [] => []
  | g :: gs => g.plain :: plainList gs

/-- The same for a transformer. -/
def TTr.plain : TTr → Tr
  | .fn t => .fn t
  | .production precs check => .production (plainPrecs precs) check.plain

/-- The same for a list of transformers. -/
def plainTrs : List TTr → List Tr
  | [] => []
  | t :: ts => t.plain :: plainTrs ts

/-- The same for the transformers of `BaseParser`. -/
def plainOpt : Option (List TTr) → Option (List Tr)
  | none => none
  | some ts => some (plainTrs ts)

/-- The same for a case of `Match`. -/
def plainCase : (List Ast → Bool) × List TTr → (List Ast → Bool) × List Tr
  | (guard, ts) => (guard, plainTrs ts)

/-- The same for the cases of `Match`. -/
def plainCases : List ((List Ast → Bool) × List TTr) → List ((List Ast → Bool) × List Tr)
  | [] => []
  | c :: cs => plainCase c :: plainCases cs

/-- The same for a precedence of `ProductionRule`. -/
def plainPrec : List TGram × Bool → List Gram × Bool
  | (gs, rtol) => (plainList gs, rtol)

/-- The same for the precedences of `ProductionRule`. -/
def plainPrecs : List (List TGram × Bool) → List (List Gram × Bool)
  | [] => []
  | p :: ps => plainPrec p :: plainPrecs ps
end

namespace Trace

/-- The global variables of the tracer: tracer.go:29-38. -/
structure State where
  enabled : Bool
  scope : String
  no : Nat
  pt : Nat
  deriving DecidableEq, Repr

/-- What `DebugTrace` saves: tracer.go:45-47. -/
structure Saved where
  enabled : Bool
  scope : String
  pt : Nat

/-- The call `DebugTrace(scope, pt)`: tracer.go:45-51. -/
def debugOpen (st : State) (scope : String) (pt : Nat) : Saved × State :=
  ({ enabled := st.enabled, scope := st.scope, pt := st.pt },
    { st with enabled := true, scope := st.scope ++ "/" ++ scope, pt := pt })

/-- The deferred function in what `DebugTrace` returns: tracer.go:54-58. -/
def debugClose (saved : Saved) (st : State) : State :=
  { st with enabled := saved.enabled, scope := saved.scope, pt := saved.pt }

/-- `if traceEnabled { traceParserTrackingNo++; return tracer(traceScope, parserTracer, traceParserTrackingNo, className, …) }`:
base.go:17-22, 168-173. -/
def mark (cls : String) (st : State) : Option Info × State :=
  if st.enabled then (some { pt := st.pt, scope := st.scope, no := st.no + 1, cls := cls }, { st with no := st.no + 1 })
  else (none, st)

end Trace

mutual
/-- Evaluation of the Go expression that builds a grammar: Go evaluates the arguments of a constructor from left to right and
calls the constructor then; in `DebugTrace(scope, pt)(children...)` the call of `DebugTrace` comes before the arguments
`children`. -/
def TGram.build : TGram → Trace.State → TGram × Trace.State
  | .prim _ none p, st => (.prim none none p, st)
  | .prim _ (some cls) p, st => let (i, st) := mark cls st; (.prim i (some cls) p, st)
  | .flatGroup _ gs, st => let (gs, st) := buildList gs st; let (i, st) := mark ":base:FlatGroup" st; (.flatGroup i gs, st)
  | .group _ gs, st => let (gs, st) := buildList gs st; let (i, st) := mark ":base:Group" st; (.group i gs, st)
  | .first _ gs, st => let (gs, st) := buildList gs st; let (i, st) := mark ":base:First" st; (.first i gs, st)
  | .lookAhead _ gs, st => let (gs, st) := buildList gs st; let (i, st) := mark ":base:LookAhead" st; (.lookAhead i gs, st)
  | .lookAheadN _ gs, st => let (gs, st) := buildList gs st; let (i, st) := mark ":base:LookAheadN" st; (.lookAheadN i gs, st)
  | .lookBehind _ a b gs, st => let (gs, st) := buildList gs st; let (i, st) := mark ":base:LookBehind" st; (.lookBehind i a b gs, st)
  | .lookBehindN _ a b gs, st => let (gs, st) := buildList gs st; let (i, st) := mark ":base:LookBehindN" st; (.lookBehindN i a b gs, st)
  | .repeat _ t gs, st => let (gs, st) := buildList gs st; let (i, st) := mark ":base:Repeat" st; (.repeat i t gs, st)
  | .trans _ g trs, st =>
    let (g, st) := g.build st; let (trs, st) := buildTrs trs st; let (i, st) := mark ":base:Trans" st; (.trans i g trs, st)
  | .indirect _ name, st => let (i, st) := mark ":base:Indirect" st; (.indirect i name, st)
  | .match _ n cases, st => let (cases, st) := buildCases cases st; let (i, st) := mark "Match" st; (.match i n cases, st)
  | .base _ cls fn props gs tr, st =>
    let (gs, st) := buildList gs st; let (tr, st) := buildOpt tr st; let (i, st) := mark cls st; (.base i cls fn props gs tr, st)
  | .debug _ scope pt gs, st =>
    let (saved, st) := debugOpen st scope pt
    let (gs, st) := buildList gs st
    let (i, st) := mark ":Base:DebugTrace" st
    (.debug i scope pt gs, debugClose saved st)

/-- The same for a list. -/
def buildList : List TGram → Trace.State → List TGram × Trace.State
  | [], st => ([], st)
  | g :: gs, st => let (g, st) := g.build st; let (gs, st) := buildList gs st; (g :: gs, st)

/-- The same for a transformer. -/
def TTr.build : TTr → Trace.State → TTr × Trace.State
  | .fn t, st => (.fn t, st)
  | .production precs check, st => let (precs, st) := buildPrecs precs st; let (check, st) := check.build st; (.production precs check, st)

/-- The same for a list of transformers. -/
def buildTrs : List TTr → Trace.State → List TTr × Trace.State
  | [], st => ([], st)
  | t :: ts, st => let (t, st) := t.build st; let (ts, st) := buildTrs ts st; (t :: ts, st)

/-- The same for the transformers of `BaseParser`. -/
def buildOpt : Option (List TTr) → Trace.State → Option (List TTr) × Trace.State
  | none, st => (none, st)
  | some ts, st => let (ts, st) := buildTrs ts st; (some ts, st)

/-- The same for a case of `Match`. -/
def buildCase : (List Ast → Bool) × List TTr → Trace.State → ((List Ast → Bool) × List TTr) × Trace.State
  | (guard, ts), st => let (ts, st) := buildTrs ts st; ((guard, ts), st)

/-- The same for the cases of `Match`. -/
def buildCases : List ((List Ast → Bool) × List TTr) → Trace.State → List ((List Ast → Bool) × List TTr) × Trace.State
  | [], st => ([], st)
  | c :: cs, st => let (c, st) := buildCase c st; let (cs, st) := buildCases cs st; (c :: cs, st)

/-- The same for a precedence of `ProductionRule`. -/
def buildPrec : List TGram × Bool → Trace.State → (List TGram × Bool) × Trace.State
  | (gs, rtol), st => let (gs, st) := buildList gs st; ((gs, rtol), st)

/-- The same for the precedences of `ProductionRule`. -/
def buildPrecs : List (List TGram × Bool) → Trace.State → List (List TGram × Bool) × Trace.State
  | [], st => ([], st)
  | p :: ps, st => let (p, st) := buildPrec p st; let (ps, st) := buildPrecs ps st; (p :: ps, st)
end

end Takenoco
