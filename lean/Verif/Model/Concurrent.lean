import Verif.Model.Heap
/-
The engine with slices once more, as a program of single memory accesses, so that the accesses of several goroutines can be interleaved.
Models the same code as `Verif.Model.Heap`, from which it differs only in the monad.

Simplifications: a parser looks at the whole stack and the whole `AstSlice` it gets, cell by cell, where the Go code looks at some cells; an AST is
read and written at once; memory is sequentially consistent. `Indirect` calls its function each time: the variable in which parsers.go:15-17
keeps the parser is not modelled (goroutines that set it at the same time store functions that do the same). Nothing is traced.
-/
namespace Takenoco

/-- What a goroutine does: it reads a cell of an array, writes one, or allocates an array, and goes on depending on what it reads and which array
it gets; in the end it returns, panics, or is out of fuel. -/
inductive Prog (α : Type) where
  | ret (a : α)
  | panic (p : Panic)
  | timeout
  | read (a i : Nat) (k : Ast → Prog α)
  | write (a i : Nat) (x : Ast) (k : Prog α)
  | alloc (k : Nat → Prog α)

/-- Sequential execution. -/
def Prog.bind {α β : Type} : Prog α → (α → Prog β) → Prog β
  | .ret a, f => f a
  | .panic p, _ => .panic p
  | .timeout, _ => .timeout
  | .read a i k, f => .read a i fun x => (k x).bind f
  | .write a i x k, f => .write a i x (k.bind f)
  | .alloc k, f => .alloc fun b => (k b).bind f

instance : Monad Prog where
  pure a := .ret a
  bind := Prog.bind

/-- What the Go language and a transformer leave open, as in `World`. It may depend on what a goroutine sees. -/
structure Leeway where
  spare : Nat → Nat → List Ast → Nat
  part : List Ast → List Ast → Option Nat
  part_spec : ∀ xs l i, part xs l = some i → i + l.length ≤ xs.length ∧ (xs.drop i).take l.length = l

namespace Conc

/-- `ParserFn`. -/
abbrev CSem := HCtx → Prog HRes

/-- `TransformerFn`. -/
abbrev CTSem := HCtx → Slice → Prog (Slice × Option Err)

/-- `ParserImplFn`. -/
abbrev CImplFn := Int → Nat → HCtx → Prog HRes

/-- `n` cells of an array. -/
def loadCells (a : Nat) : Nat → Nat → Prog (List Ast)
  | _, 0 => .ret []
  | i, n + 1 => .read a i fun x => (loadCells a (i + 1) n).bind fun l => .ret (x :: l)

/-- The elements of a slice. -/
def load (s : Slice) : Prog (List Ast) := loadCells s.arr s.off s.len

/-- Cells of an array are set. -/
def store (a : Nat) : Nat → List Ast → Prog Unit
  | _, [] => .ret ()
  | i, x :: l => .write a i x (store a (i + 1) l)

/-- A new array, and a slice of its first elements. -/
def make (l : List Ast) (cap : Nat) : Prog Slice :=
  .alloc fun b => do
    store b 0 l
    return { arr := b, off := 0, len := l.length, cap := cap }

/-- `append(s, l...)` of the Go language. -/
def append (w : Leeway) (s : Slice) (l : List Ast) : Prog Slice :=
  if s.len + l.length ≤ s.cap then do
    store s.arr (s.off + s.len) l
    return { s with len := s.len + l.length }
  else do
    let xs ← load s
    make (xs ++ l) (s.len + l.length + w.spare s.len s.cap l)

/-- The source that a parser sees. -/
def loadSrc : Option HSrc → Prog (Option SliceSrc)
  | none => return none
  | some (.other s) => return some s
  | some (.asts s) => do
    let l ← load s
    return some (astSliceSrc l)

/-- What is seen when a context is looked at. -/
def view (c : HCtx) : Prog Ctx := do
  let src ← loadSrc c.slice
  let l ← load c.stack
  return { str := c.str, slice := src, pos := c.pos, len := c.len, qty := c.qty, stack := l, status := c.status, cls := c.cls, tag := c.tag }

/-- A parser without sub-parsers: string/parsers.go:23, 62, 87, …, object/parsers.go:16, 59, …, base/parsers.go:56-59. -/
def terminal (w : Leeway) (p : Sem) : CSem := fun c => do
  match p (← view c) with
  | .panic x => .panic x
  | .timeout => .timeout
  | .ok (o, err) =>
    let s ← append w c.stack (o.stack.drop c.stack.len)
    return (Heap.withStack c s o, err)

/-- A callback of `BaseParser`. -/
def callback (w : Leeway) (f : ImplFn) : CImplFn := fun k bottom c => do
  match f k bottom (← view c) with
  | .panic x => .panic x
  | .timeout => .timeout
  | .ok (o, err) =>
    let s ← append w (Heap.upTo c.stack bottom) (o.stack.drop bottom)
    return (Heap.withStack c s o, err)

/-- A transformer. -/
def transformer (w : Leeway) (t : TSem) : CTSem := fun c s => do
  let v ← view c
  let xs ← load s
  match t v xs with
  | .panic x => .panic x
  | .timeout => .timeout
  | .ok (l, err) =>
    match w.part xs l with
    | some i => return ({ s with off := s.off + i, len := l.length, cap := s.cap - i }, err)
    | none =>
      let s' ← make l (l.length + w.spare s.len s.cap l)
      return (s', err)

/-- `LightBaseParser`: base.go:4-15. -/
def light (cls : String) (fn : CSem) : CSem := fun ctx => do
  let (out, err) ← fn ctx
  let out := Heap.fixStatus out err
  let out := if out.status = .matched then { out with qty := 1 } else out
  return ({ out with cls := cls }, err)

/-- The `CHILDREN` loop: base.go:65-92. -/
def childLoop (thereExists : Bool) : List CSem → Nat → HCtx → Prog Heap.ChildEnd
  | [], k, out => return .fell k out
  | c :: cs, k, prev => do
    let (o, err) ← c prev
    let out := Heap.fixStatus o err
    match out.status with
    | .error => return .ret out err
    | .unmatched => if thereExists then childLoop thereExists cs k prev else return .unmatched
    | .matched => if thereExists then return .fell (k + 1) out else childLoop thereExists cs (k + 1) out

/-- base.go:103-108, 138-143. -/
def callFn (fn : Option CImplFn) (num : Int) (bottom : Nat) (out : HCtx) : Prog HRes :=
  match fn with
  | none => return (out, none)
  | some f => do
    let (o, err) ← f num bottom out
    return (Heap.fixStatus o err, err)

/-- One iteration of the `PARENT` loop: base.go:61-117. -/
def iteration (fn : Option CImplFn) (thereExists : Bool) (children : List CSem) (bottom count : Nat) (saved : HCtx) : Prog Heap.IterEnd := do
  match ← childLoop thereExists children 0 saved with
  | .ret o e => return .ret o e
  | .unmatched => return .brk saved
  | .fell k out =>
    if thereExists ∧ 0 < children.length ∧ k = 0 then return .brk saved
    else
      let (out, err) ← callFn fn k bottom { out with qty := count }
      match out.status with
      | .error => return .ret out err
      | .unmatched => return .brk saved
      | .matched => return .next out

/-- The `PARENT` loop: base.go:60-118. -/
def parentLoop (unbounded : Bool) (body : Nat → HCtx → Prog Heap.IterEnd) : Nat → Nat → HCtx → Prog Heap.LoopEnd
  | 0, count, out => if unbounded then .timeout else return .done count out
  | k + 1, count, out => do
    match ← body count out with
    | .ret o e => return .ret o e
    | .brk o => return .done count o
    | .next o => parentLoop unbounded body k (count + 1) o

/-- `for _, transform := range tr`: base.go:155-161, match.go:28-34. -/
def applyTrs (ctx : HCtx) : List CTSem → Slice → Prog (Slice × Option Err)
  | [], asts => return (asts, none)
  | t :: ts, asts => do
    match ← t ctx asts with
    | (asts', none) => applyTrs ctx ts asts'
    | (asts', some e) => return (asts', some e)

/-- base.go:153-165. `append(out.AstStack[:len(ctx.AstStack)], asts...)` reads all of `asts` before it writes. -/
def applyTransforms (w : Leeway) (tr : Option (List CTSem)) (ctx out : HCtx) : Prog HRes :=
  match tr with
  | none => return (out, none)
  | some ts =>
    if out.stack.len < ctx.stack.len then .panic .index
    else do
      match ← applyTrs ctx ts (Heap.from_ out.stack ctx.stack.len) with
      | (_, some e) => return ({ out with status := .error }, some e)
      | (asts, none) =>
        let l ← load asts
        let s ← append w (Heap.upTo out.stack ctx.stack.len) l
        return ({ out with stack := s }, none)

/-- base.go:120-165. -/
def afterLoop (w : Leeway) (f : Flags) (fn : Option CImplFn) (tr : Option (List CTSem)) (ctx : HCtx) (count : Nat) (out : HCtx) : Prog HRes :=
  let out := Heap.negateStatus f.negative (Heap.checkMin f.qty.min count out)
  if out.status ≠ .matched then return (out, none)
  else do
    let (out, _) ← callFn fn (-1) ctx.stack.len { out with qty := count }
    if out.status ≠ .matched then return (out, none)
    else applyTransforms w tr ctx (if f.rewind then ctx else out)

/-- `BaseParser`: base.go:26-174. -/
def base (w : Leeway) (fuel : Nat) (cls : String) (fn : Option CImplFn) (props : List PropItem) (children : List CSem)
    (tr : Option (List CTSem)) : CSem := fun ctx0 => do
  let f := readProps props
  let ctx := { ctx0 with cls := cls }
  let bottom := ctx.stack.len
  let out := { ctx with status := .matched }
  let unbounded := decide (f.qty.max < 0)
  let iters := if unbounded then fuel else f.qty.max.toNat
  match ← parentLoop unbounded (iteration fn f.thereExists children bottom) iters 0 out with
  | .ret o e => return (o, e)
  | .done count out => afterLoop w f fn tr ctx count out

/-- parsers.go:131-158. -/
def lookBehindLoop (negative : Bool) (parser : CSem) (ctx : HCtx) : Nat → Int → Prog HRes
  | 0, _ => return ({ ctx with status := if negative then .matched else .unmatched }, none)
  | k + 1, i =>
    if (ctx.pos : Int) - i < 0 then lookBehindLoop negative parser ctx k (i + 1)
    else do
      match ← parser { ctx with pos := ((ctx.pos : Int) - i).toNat } with
      | (out, some e) => return (out, some e)
      | (out, none) =>
        if out.status = .matched then
          if negative then return ({ out with status := .unmatched }, none) else return (ctx, none)
        else lookBehindLoop negative parser ctx k (i + 1)

/-- `lookBehindBase`: parsers.go:122-160. -/
def lookBehindBase (w : Leeway) (negative : Bool) (minN maxN : Int) (children : List CSem) : CSem := fun ctx =>
  lookBehindLoop negative (base w 0 (if negative then ":base:LookBehindN" else ":base:LookBehind") none [.rewind] children none)
    ctx (maxN - minN + 1).toNat minN

/-- `Match`: match.go:15-44. -/
def matchFn (w : Leeway) (n : Int) : List ((List Ast → Bool) × List CTSem) → CSem
  | [], ctx => return ({ ctx with len := 0, status := .unmatched }, none)
  | (guard, trs) :: cases, ctx => do
    if guard (← load ctx.stack) then
      let ctx := { ctx with len := 0, status := .unmatched }
      let sp : Int := (ctx.stack.len : Int) - n
      if sp < 0 ∨ (ctx.stack.len : Int) < sp then .panic .index
      else
        match ← applyTrs ctx trs (Heap.from_ ctx.stack sp.toNat) with
        | (_, some e) => return ({ ctx with status := .error }, some e)
        | (asts, none) =>
          let l ← load asts
          let s ← append w (Heap.upTo ctx.stack sp.toNat) l
          return ({ ctx with stack := s, status := .matched }, none)
    else matchFn w n cases ctx

/-- `newContext`: production.go:16-26. -/
def newContext (asts : Slice) (tag : Value) : Prog HCtx := do
  let s ← make [] 1024
  return { str := [], slice := some (.asts asts), pos := 0, len := 0, qty := 0, stack := s, status := .matched, cls := "", tag := tag }

/-- production.go:38-62. -/
def tryRules (w : Leeway) (astCtx : HCtx) (asts : Slice) (p : Nat) : List CSem → Prog Heap.Search
  | [] => return .noMatch
  | rule :: rules => do
    match ← rule { astCtx with pos := p } with
    | (_, some e) => return .err e
    | (out, none) =>
      if out.status ≠ .matched then tryRules w astCtx asts p rules
      else do
        let z ← make [] asts.len
        let z ← append w z (← load (Heap.upTo asts p))
        let z ← append w z (← load out.stack)
        if asts.len < out.pos then .panic .index
        else
          let z ← append w z (← load (Heap.from_ asts out.pos))
          return .rewritten z

/-- production.go:37-63. -/
def tryPositions (w : Leeway) (astCtx : HCtx) (asts : Slice) (rules : List CSem) (rtol : Bool) : Nat → Nat → Prog Heap.Search
  | 0, _ => return .noMatch
  | k + 1, i => do
    match ← tryRules w astCtx asts (if rtol then asts.len - i else i) rules with
    | .noMatch => tryPositions w astCtx asts rules rtol k (i + 1)
    | r => return r

/-- production.go:34-64. -/
def tryPrecedences (w : Leeway) (tag : Value) (asts : Slice) : List (List CSem × Bool) → Prog Heap.Search
  | [] => return .noMatch
  | (rules, rtol) :: ps => do
    let astCtx ← newContext asts tag
    match ← tryPositions w astCtx asts rules rtol (asts.len + 1) 0 with
    | .noMatch => tryPrecedences w tag asts ps
    | r => return r

/-- production.go:66. -/
def checkHolds (check : CSem) (tag : Value) (asts : Slice) : Prog Bool := do
  let (out, err) ← check (← newContext asts tag)
  return err.isNone && decide (out.status = .matched)

/-- production.go:31-74. -/
def productionLoop (w : Leeway) (precs : List (List CSem × Bool)) (check : CSem) (tag : Value) : Nat → Slice → Prog (Slice × Option Err)
  | 0, _ => .timeout
  | n + 1, asts => do
    match ← tryPrecedences w tag asts precs with
    | .err e => return (Heap.nilSlice, some e)
    | .noMatch =>
      if ← checkHolds check tag asts then return (asts, none)
      else return (Heap.nilSlice, some (.msg "Production rules are not matched."))
    | .rewritten asts' =>
      if ← checkHolds check tag asts' then return (asts', none)
      else productionLoop w precs check tag n asts'

mutual
/-- Execution of a grammar with slices. -/
def run (w : Leeway) (env : Env) : Nat → Gram → CSem
  | 0, _ => fun _ => .timeout
  | n + 1, g =>
    match g with
    | .prim p => terminal w p
    | .flatGroup gs => base w 0 ":base:FlatGroup" none [] (gs.map (run w env n)) none
    | .group gs => base w 0 ":base:Group" none [] (gs.map (run w env n)) (some [transformer w groupingTransform])
    | .first gs => base w 0 ":base:First" none [.thereExists] (gs.map (run w env n)) none
    | .lookAhead gs => base w 0 ":base:LookAhead" none [.rewind] (gs.map (run w env n)) none
    | .lookAheadN gs => base w 0 ":base:LookAheadN" none [.rewind, .negative] (gs.map (run w env n)) none
    | .lookBehind minN maxN gs => lookBehindBase w false minN maxN (gs.map (run w env n))
    | .lookBehindN minN maxN gs => lookBehindBase w true minN maxN (gs.map (run w env n))
    | .repeat t gs => base w n ":base:Repeat" none [.times t] (gs.map (run w env n)) none
    | .trans g trs => base w 0 ":base:Trans" none [] [run w env n g] (if trs.isEmpty then none else some (trs.map (runTr w env n)))
    | .indirect name => light ":base:Indirect" (run w env n (env name))
    | .match k cases => light "Match" (matchFn w k (cases.map fun c => (c.1, c.2.map (runTr w env n))))
    | .base cls fn props gs tr => base w n cls (fn.map (callback w)) props (gs.map (run w env n)) (tr.map (·.map (runTr w env n)))

/-- Execution of a transformer with slices. -/
def runTr (w : Leeway) (env : Env) : Nat → Tr → CTSem
  | 0, _ => fun _ _ => .timeout
  | n + 1, t =>
    match t with
    | .fn f => transformer w f
    | .production precs check => fun ctx asts =>
      productionLoop w (precs.map fun p => (p.1.map (run w env n), p.2)) (run w env n check) ctx.tag n asts
end

/-- `NewStringParserContext`: string/new.go:8-15. -/
def newStrCtx (s : Bytes) : Prog HCtx := do
  let stack ← make [] 1024
  return { str := s, slice := none, pos := 0, len := 0, qty := 0, stack := stack, status := .matched, cls := "", tag := .nil }

end Conc
/-- Goroutines that share the memory, by their numbers. -/
structure Machine where
  mem : Mem
  threads : Nat → Prog HRes

/-- The memory with one cell set. -/
def Mem.set (m : Mem) (a i : Nat) (x : Ast) : Mem := { m with cell := fun b j => if b = a ∧ j = i then x else m.cell b j }

/-- The memory with a new array, of zero values as in Go. -/
def Mem.grow (m : Mem) : Mem := { next := m.next + 1, cell := fun b j => if b = m.next then default else m.cell b j }

/-- One step of a goroutine: the memory and what is left to do afterwards. -/
def Prog.step {α : Type} (m : Mem) : Prog α → Mem × Prog α
  | .ret a => (m, .ret a)
  | .panic p => (m, .panic p)
  | .timeout => (m, .timeout)
  | .read a i k => (m, k (m.cell a i))
  | .write a i x k => (m.set a i x, k)
  | .alloc k => (m.grow, k m.next)

/-- The goroutine `t` does one step. -/
def Machine.step (M : Machine) (t : Nat) : Machine :=
  { mem := ((M.threads t).step M.mem).1, threads := fun u => if u = t then ((M.threads t).step M.mem).2 else M.threads u }

/-- Goroutines run in the order that the scheduler has chosen. -/
def Machine.steps (M : Machine) (order : List Nat) : Machine := order.foldl Machine.step M

end Takenoco
