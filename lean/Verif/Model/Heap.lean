import Verif.Model.Gram
/-
The engine once more, with `AstStack` as a Go slice: a window on an array that other contexts see, too. Models the same code as
`Verif.Model.Base`, `Parsers` and `Production`, with `append`, slicing and `make` of `AstSlice`s made explicit.

ASTs are values here, as in Go: storing one in an array copies it. Simplification: what an `Ast.Value` refers to is a value, too; an
`AstSlice` in it is not a window on an array. (The library stores only freshly made slices there, and does not write to them.)
-/
namespace Takenoco

/-- A Go slice of type `AstSlice`: the array, the index of the first element, length and capacity. -/
structure Slice where
  arr : Nat
  off : Nat
  len : Nat
  cap : Nat

/-- The memory: the cells of the arrays, and the number of the next array that will be allocated. -/
structure Mem where
  next : Nat
  cell : Nat → Nat → Ast

/-- The elements of a slice. -/
def Mem.read (m : Mem) (s : Slice) : List Ast := (List.range s.len).map fun i => m.cell s.arr (s.off + i)

/-- The memory with `l` written to the array `a`, beginning at the index `i`. -/
def Mem.write (m : Mem) (a i : Nat) (l : List Ast) : Mem :=
  { m with cell := fun b j => if b = a ∧ i ≤ j ∧ j < i + l.length then l.getD (j - i) default else m.cell b j }

/-- What the Go language and a transformer leave open: how much larger than necessary the array is that `append` allocates, and
whether a transformer returns a part of its argument or a new slice when the elements are the same. -/
structure World where
  spare : Mem → Slice → List Ast → Nat
  part : Mem → Slice → List Ast → Option Nat
  part_spec : ∀ m s l i, part m s l = some i → i + l.length ≤ s.len ∧ (m.read { s with off := s.off + i, len := l.length }) = l

/-- A computation that uses the memory. -/
def HM (α : Type) := Mem → Out (α × Mem)

/-- Sequential execution. -/
def HM.bind {α β : Type} (x : HM α) (f : α → HM β) : HM β := fun m =>
  match x m with
  | .ok (a, m) => f a m
  | .panic p => .panic p
  | .timeout => .timeout

instance : Monad HM where
  pure a := fun m => .ok (a, m)
  bind := HM.bind

namespace Heap

/-- A panic, and running out of fuel. -/
def panic {α : Type} (p : Panic) : HM α := fun _ => .panic p
def timeout {α : Type} : HM α := fun _ => .timeout

/-- The elements of a slice. -/
def load (s : Slice) : HM (List Ast) := fun m => .ok (m.read s, m)

/-- A new array with room for `cap` elements, and a slice of its first ones: `make(AstSlice, 0, cap)` followed by `append`, and
composite literals. -/
def make (l : List Ast) (cap : Nat) : HM Slice := fun m =>
  .ok ({ arr := m.next, off := 0, len := l.length, cap := cap }, { next := m.next + 1, cell := (m.write m.next 0 l).cell })

/-- `append(s, l...)` of the Go language: within the capacity the array is written to, otherwise a new one is made. -/
def append (w : World) (s : Slice) (l : List Ast) : HM Slice := fun m =>
  if s.len + l.length ≤ s.cap then .ok ({ s with len := s.len + l.length }, m.write s.arr (s.off + s.len) l)
  else make (m.read s ++ l) (s.len + l.length + w.spare m s l) m

/-- `s[:n]` -/
def upTo (s : Slice) (n : Nat) : Slice := { s with len := n }

/-- `s[n:]` -/
def from_ (s : Slice) (n : Nat) : Slice := { s with off := s.off + n, len := s.len - n, cap := s.cap - n }

end Heap

/-- The `Slice` of a context: any `SliceLike`, or an `AstSlice` (production.go:66, 35). -/
inductive HSrc where
  | other (s : SliceSrc)
  | asts (s : Slice)

/-- `ParserContext` with the slice `AstStack`: types.go:65-82. -/
structure HCtx where
  str : Bytes
  slice : Option HSrc
  pos : Nat
  len : Nat
  qty : Nat
  stack : Slice
  status : Status
  cls : String
  tag : Value

/-- The source that a parser sees. -/
def Mem.src (m : Mem) : HSrc → SliceSrc
  | .other s => s
  | .asts s => astSliceSrc (m.read s)

/-- What is seen when a context is looked at, with this memory. -/
def HCtx.view (m : Mem) (c : HCtx) : Ctx :=
  { str := c.str, slice := c.slice.map m.src, pos := c.pos, len := c.len, qty := c.qty, stack := m.read c.stack, status := c.status,
    cls := c.cls, tag := c.tag }

/-- What a `ParserFn` returns. -/
abbrev HRes := HCtx × Option Err

/-- `ParserFn`. -/
abbrev HSem := HCtx → HM HRes

/-- `TransformerFn`. -/
abbrev HTSem := HCtx → Slice → HM (Slice × Option Err)

/-- `ParserImplFn`. -/
abbrev HImplFn := Int → Nat → HCtx → HM HRes

namespace Heap

/-- The context `o` with the given stack, and the source of `c`. -/
def withStack (c : HCtx) (s : Slice) (o : Ctx) : HCtx :=
  { str := o.str, slice := c.slice, pos := o.pos, len := o.len, qty := o.qty, stack := s, status := o.status, cls := o.cls, tag := o.tag }

/-- A parser without sub-parsers. It looks at the context and pushes by `ctx.AstStack = append(ctx.AstStack, …)`: string/parsers.go:23,
62, 87, …, object/parsers.go:16, 59, …, base/parsers.go:56-59. -/
def terminal (w : World) (p : Sem) : HSem := fun c m =>
  match p (c.view m) with
  | .panic x => .panic x
  | .timeout => .timeout
  | .ok (o, err) =>
    match append w c.stack (o.stack.drop c.stack.len) m with
    | .ok (s, m') => .ok ((withStack c s o, err), m')
    | .panic x => .panic x
    | .timeout => .timeout

/-- A callback of `BaseParser`. It looks at the context and replaces what is above `bottomOfAst` by
`ctx.AstStack = append(ctx.AstStack[:bottomOfAst], …)`. -/
def callback (w : World) (f : ImplFn) : HImplFn := fun k bottom c m =>
  match f k bottom (c.view m) with
  | .panic x => .panic x
  | .timeout => .timeout
  | .ok (o, err) =>
    match append w (upTo c.stack bottom) (o.stack.drop bottom) m with
    | .ok (s, m') => .ok ((withStack c s o, err), m')
    | .panic x => .panic x
    | .timeout => .timeout

/-- A transformer. It looks at its arguments, and returns a part of `asts` or a new slice; none of the library's transformers
writes to the slice it gets (base/transformers.go, string/transformers.go). -/
def transformer (w : World) (t : TSem) : HTSem := fun c s m =>
  match t (c.view m) (m.read s) with
  | .panic x => .panic x
  | .timeout => .timeout
  | .ok (l, err) =>
    match w.part m s l with
    | some i => .ok (({ s with off := s.off + i, len := l.length, cap := s.cap - i }, err), m)
    | none =>
      match make l (l.length + w.spare m s l) m with
      | .ok (s', m') => .ok ((s', err), m')
      | .panic x => .panic x
      | .timeout => .timeout

/-- base.go:7-9. -/
def fixStatus (o : HCtx) (err : Option Err) : HCtx :=
  if err.isSome ∧ o.status ≠ .error then { o with status := .error } else o

/-- `LightBaseParser`: base.go:4-15. -/
def light (cls : String) (fn : HSem) : HSem := fun ctx => do
  let (out, err) ← fn ctx
  let out := fixStatus out err
  let out := if out.status = .matched then { out with qty := 1 } else out
  return ({ out with cls := cls }, err)

/-- How the `CHILDREN` loop ends. -/
inductive ChildEnd where
  | fell (numMatched : Nat) (out : HCtx)
  | unmatched
  | ret (out : HCtx) (err : Option Err)

/-- The `CHILDREN` loop: base.go:65-92. -/
def childLoop (thereExists : Bool) : List HSem → Nat → HCtx → HM ChildEnd
  | [], k, out => return .fell k out
  | c :: cs, k, prev => do
    let (o, err) ← c prev
    let out := fixStatus o err
    match out.status with
    | .error => return .ret out err
    | .unmatched => if thereExists then childLoop thereExists cs k prev else return .unmatched
    | .matched => if thereExists then return .fell (k + 1) out else childLoop thereExists cs (k + 1) out

/-- base.go:103-108, 138-143. -/
def callFn (fn : Option HImplFn) (num : Int) (bottom : Nat) (out : HCtx) : HM HRes :=
  match fn with
  | none => return (out, none)
  | some f => do
    let (o, err) ← f num bottom out
    return (fixStatus o err, err)

/-- How one iteration of the `PARENT` loop ends. -/
inductive IterEnd where
  | next (out : HCtx)
  | brk (out : HCtx)
  | ret (out : HCtx) (err : Option Err)

/-- One iteration of the `PARENT` loop: base.go:61-117. -/
def iteration (fn : Option HImplFn) (thereExists : Bool) (children : List HSem) (bottom count : Nat) (saved : HCtx) : HM IterEnd := do
  match ← childLoop thereExists children 0 saved with
  | .ret o e => return .ret o e
  | .unmatched => return .brk saved
  | .fell k out =>
    if thereExists ∧ 0 < children.length ∧ k = 0 then return .brk saved
    else
      let (out, err) ← callFn fn k bottom { out with qty := count }
      match out.status with
      | .error => return .ret out err
      | .unmatched => return .brk saved
      | .matched => return .next out

/-- How the `PARENT` loop ends. -/
inductive LoopEnd where
  | done (count : Nat) (out : HCtx)
  | ret (out : HCtx) (err : Option Err)

/-- The `PARENT` loop: base.go:60-118. -/
def parentLoop (unbounded : Bool) (body : Nat → HCtx → HM IterEnd) : Nat → Nat → HCtx → HM LoopEnd
  | 0, count, out => if unbounded then timeout else return .done count out
  | k + 1, count, out => do
    match ← body count out with
    | .ret o e => return .ret o e
    | .brk o => return .done count o
    | .next o => parentLoop unbounded body k (count + 1) o

/-- `for _, transform := range tr`: base.go:155-161, match.go:28-34. -/
def applyTrs (ctx : HCtx) : List HTSem → Slice → HM (Slice × Option Err)
  | [], asts => return (asts, none)
  | t :: ts, asts => do
    match ← t ctx asts with
    | (asts', none) => applyTrs ctx ts asts'
    | (asts', some e) => return (asts', some e)

/-- base.go:153-165. `append(out.AstStack[:len(ctx.AstStack)], asts...)` reads all of `asts` before it writes. -/
def applyTransforms (w : World) (tr : Option (List HTSem)) (ctx out : HCtx) : HM HRes :=
  match tr with
  | none => return (out, none)
  | some ts =>
    if out.stack.len < ctx.stack.len then panic .index
    else do
      match ← applyTrs ctx ts (from_ out.stack ctx.stack.len) with
      | (_, some e) => return ({ out with status := .error }, some e)
      | (asts, none) =>
        let l ← load asts
        let s ← append w (upTo out.stack ctx.stack.len) l
        return ({ out with stack := s }, none)

/-- base.go:124-131. -/
def negateStatus (negative : Bool) (o : HCtx) : HCtx :=
  if negative then
    match o.status with
    | .unmatched => { o with status := .matched }
    | .matched => { o with status := .unmatched }
    | .error => o
  else o

/-- base.go:120-122. -/
def checkMin (min : Int) (count : Nat) (o : HCtx) : HCtx :=
  if 0 ≤ min ∧ (count : Int) < min then { o with status := .unmatched } else o

/-- base.go:120-165. -/
def afterLoop (w : World) (f : Flags) (fn : Option HImplFn) (tr : Option (List HTSem)) (ctx : HCtx) (count : Nat) (out : HCtx) : HM HRes :=
  let out := negateStatus f.negative (checkMin f.qty.min count out)
  if out.status ≠ .matched then return (out, none)
  else do
    let (out, _) ← callFn fn (-1) ctx.stack.len { out with qty := count }
    if out.status ≠ .matched then return (out, none)
    else applyTransforms w tr ctx (if f.rewind then ctx else out)

/-- `BaseParser`: base.go:26-174. -/
def base (w : World) (fuel : Nat) (cls : String) (fn : Option HImplFn) (props : List PropItem) (children : List HSem)
    (tr : Option (List HTSem)) : HSem := fun ctx0 => do
  let f := readProps props
  let ctx := { ctx0 with cls := cls }
  let bottom := ctx.stack.len
  let out := { ctx with status := .matched }
  let unbounded := decide (f.qty.max < 0)
  let iters := if unbounded then fuel else f.qty.max.toNat
  match ← parentLoop unbounded (iteration fn f.thereExists children bottom) iters 0 out with
  | .ret o e => return (o, e)
  | .done count out => afterLoop w f fn tr ctx count out

/-- parsers.go:131-158. -/
def lookBehindLoop (negative : Bool) (parser : HSem) (ctx : HCtx) : Nat → Int → HM HRes
  | 0, _ => return ({ ctx with status := if negative then .matched else .unmatched }, none)
  | k + 1, i =>
    if (ctx.pos : Int) - i < 0 then lookBehindLoop negative parser ctx k (i + 1)
    else do
      match ← parser { ctx with pos := ((ctx.pos : Int) - i).toNat } with
      | (out, some e) => return (out, some e)
      | (out, none) =>
        if out.status = .matched then
          if negative then return ({ out with status := .unmatched }, none) else return (ctx, none)
        else lookBehindLoop negative parser ctx k (i + 1)

/-- `lookBehindBase`: parsers.go:122-160. -/
def lookBehindBase (w : World) (negative : Bool) (minN maxN : Int) (children : List HSem) : HSem := fun ctx =>
  lookBehindLoop negative (base w 0 (if negative then ":base:LookBehindN" else ":base:LookBehind") none [.rewind] children none)
    ctx (maxN - minN + 1).toNat minN

/-- `Match`: match.go:15-44. -/
def matchFn (w : World) (n : Int) : List ((List Ast → Bool) × List HTSem) → HSem
  | [], ctx => return ({ ctx with len := 0, status := .unmatched }, none)
  | (guard, trs) :: cases, ctx => do
    if guard (← load ctx.stack) then
      let ctx := { ctx with len := 0, status := .unmatched }
      let sp : Int := (ctx.stack.len : Int) - n
      if sp < 0 ∨ (ctx.stack.len : Int) < sp then panic .index
      else
        match ← applyTrs ctx trs (from_ ctx.stack sp.toNat) with
        | (_, some e) => return ({ ctx with status := .error }, some e)
        | (asts, none) =>
          let l ← load asts
          let s ← append w (upTo ctx.stack sp.toNat) l
          return ({ ctx with stack := s, status := .matched }, none)
    else matchFn w n cases ctx

/-- `newContext`: production.go:16-26. -/
def newContext (asts : Slice) (tag : Value) : HM HCtx := do
  let s ← make [] 1024
  return { str := [], slice := some (.asts asts), pos := 0, len := 0, qty := 0, stack := s, status := .matched, cls := "", tag := tag }

/-- How the search of one round ends. -/
inductive Search where
  | noMatch
  | rewritten (asts : Slice)
  | err (e : Err)

/-- production.go:38-62. -/
def tryRules (w : World) (astCtx : HCtx) (asts : Slice) (p : Nat) : List HSem → HM Search
  | [] => return .noMatch
  | rule :: rules => do
    match ← rule { astCtx with pos := p } with
    | (_, some e) => return .err e
    | (out, none) =>
      if out.status ≠ .matched then tryRules w astCtx asts p rules
      else do
        let z ← make [] asts.len
        let z ← append w z (← load (upTo asts p))
        let z ← append w z (← load out.stack)
        if asts.len < out.pos then panic .index
        else
          let z ← append w z (← load (from_ asts out.pos))
          return .rewritten z

/-- production.go:37-63. -/
def tryPositions (w : World) (astCtx : HCtx) (asts : Slice) (rules : List HSem) (rtol : Bool) : Nat → Nat → HM Search
  | 0, _ => return .noMatch
  | k + 1, i => do
    match ← tryRules w astCtx asts (if rtol then asts.len - i else i) rules with
    | .noMatch => tryPositions w astCtx asts rules rtol k (i + 1)
    | r => return r

/-- production.go:34-64. -/
def tryPrecedences (w : World) (tag : Value) (asts : Slice) : List (List HSem × Bool) → HM Search
  | [] => return .noMatch
  | (rules, rtol) :: ps => do
    let astCtx ← newContext asts tag
    match ← tryPositions w astCtx asts rules rtol (asts.len + 1) 0 with
    | .noMatch => tryPrecedences w tag asts ps
    | r => return r

/-- production.go:66. -/
def checkHolds (check : HSem) (tag : Value) (asts : Slice) : HM Bool := do
  let (out, err) ← check (← newContext asts tag)
  return err.isNone && decide (out.status = .matched)

/-- A nil slice. -/
def nilSlice : Slice := { arr := 0, off := 0, len := 0, cap := 0 }

/-- production.go:31-74. -/
def productionLoop (w : World) (precs : List (List HSem × Bool)) (check : HSem) (tag : Value) : Nat → Slice → HM (Slice × Option Err)
  | 0, _ => timeout
  | n + 1, asts => do
    match ← tryPrecedences w tag asts precs with
    | .err e => return (nilSlice, some e)
    | .noMatch =>
      if ← checkHolds check tag asts then return (asts, none)
      else return (nilSlice, some (.msg "Production rules are not matched."))
    | .rewritten asts' =>
      if ← checkHolds check tag asts' then return (asts', none)
      else productionLoop w precs check tag n asts'

mutual
/-- Execution of a grammar with slices. -/
def run (w : World) (env : Env) : Nat → Gram → HSem
  | 0, _ => fun _ => timeout
  | n + 1, g =>
    match g with
    | .prim p => terminal w p
    | .flatGroup gs => base w 0 ":base:FlatGroup" none [] (gs.map (run w env n)) none
    | .group gs => base w 0 ":base:Group" none [] (gs.map (run w env n)) (some [transformer w groupingTransform])
    | .first gs => base w 0 ":base:First" none [.thereExists] (gs.map (run w env n)) none
    | .lookAhead gs => base w 0 ":base:LookAhead" none [.rewind] (gs.map (run w env n)) none
    | .lookAheadN gs => base w 0 ":base:LookAheadN" none [.rewind, .negative] (gs.map (run w env n)) none
    | .lookBehind minN maxN gs => lookBehindBase w false minN maxN (gs.map (run w env n))
    | .lookBehindN minN maxN gs => lookBehindBase w true minN maxN (gs.map (run w env n))
    | .repeat t gs => base w n ":base:Repeat" none [.times t] (gs.map (run w env n)) none
    | .trans g trs => base w 0 ":base:Trans" none [] [run w env n g] (if trs.isEmpty then none else some (trs.map (runTr w env n)))
    | .indirect name => light ":base:Indirect" (run w env n (env name))
    | .match k cases => light "Match" (matchFn w k (cases.map fun c => (c.1, c.2.map (runTr w env n))))
    | .base cls fn props gs tr => base w n cls (fn.map (callback w)) props (gs.map (run w env n)) (tr.map (·.map (runTr w env n)))

/-- Execution of a transformer with slices. -/
def runTr (w : World) (env : Env) : Nat → Tr → HTSem
  | 0, _ => fun _ _ => timeout
  | n + 1, t =>
    match t with
    | .fn f => transformer w f
    | .production precs check => fun ctx asts =>
      productionLoop w (precs.map fun p => (p.1.map (run w env n), p.2)) (run w env n check) ctx.tag n asts
end

/-- `NewStringParserContext`: string/new.go:8-15. -/
def newStrCtx (s : Bytes) : HM HCtx := do
  let stack ← make [] 1024
  return { str := s, slice := none, pos := 0, len := 0, qty := 0, stack := stack, status := .matched, cls := "", tag := .nil }

end Heap
end Takenoco
