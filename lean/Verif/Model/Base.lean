import Verif.Model.Types
/-
Layer A model of /repo/base/base.go: the parser engine.
-/
namespace Takenoco

/-- `if err != nil && out.MatchStatus < MatchStatus_Error { out.MatchStatus = MatchStatus_Error }`
(base.go:7-9, 70-72, 105-107, 140-142). -/
def fixStatus (o : Ctx) (err : Option Err) : Ctx :=
  if err.isSome ∧ o.status ≠ .error then { o with status := .error } else o

/-- `LightBaseParser`: base.go:4-23, without the tracer (modelled in `Verif.Model.Tracer`). -/
def lightParser (cls : String) (fn : Sem) : Sem := fun ctx =>
  match fn ctx with
  | .panic p => .panic p
  | .timeout => .timeout
  | .ok (out, err) =>
    let out := fixStatus out err
    let out := if out.status = .matched then { out with qty := 1 } else out
    .ok ({ out with cls := cls }, err)

/-- The flags computed from `props`: base.go:31-47. -/
structure Flags where
  negative : Bool
  thereExists : Bool
  rewind : Bool
  qty : Times

/-- base.go:36-47, one property. -/
def Flags.read (f : Flags) : PropItem → Flags
  | .times t => { f with qty := t }
  | .negative => { f with negative := true }
  | .thereExists => { f with thereExists := true }
  | .rewind => { f with rewind := true }
  | .other => f

/-- base.go:31-47. -/
def readProps (props : List PropItem) : Flags :=
  props.foldl Flags.read
    { negative := false, thereExists := false, rewind := false, qty := qtyOnce }

/-- How the `CHILDREN` loop ends: it falls through with the number of matched children, an unmatched
child breaks the `PARENT` loop, or `return out, err`. -/
inductive ChildEnd where
  | fell (numMatched : Nat) (out : Ctx)
  | unmatched
  | ret (out : Ctx) (err : Option Err)

/-- The `CHILDREN` loop: base.go:65-92. `prev` is the current `out` (rewound when `thereExists`). -/
def childLoop (thereExists : Bool) : List Sem → Nat → Ctx → Out ChildEnd
  | [], k, out => .ok (.fell k out)
  | c :: cs, k, prev =>
    match c prev with
    | .panic p => .panic p
    | .timeout => .timeout
    | .ok (o, err) =>
      let out := fixStatus o err
      match out.status with
      | .error => .ok (.ret out err)
      | .unmatched =>
        if thereExists then childLoop thereExists cs k prev else .ok .unmatched
      | .matched =>
        if thereExists then .ok (.fell (k + 1) out) else childLoop thereExists cs (k + 1) out

/-- `if fn != nil { out, err = fn(..., out); ... }`: base.go:103-108, 138-143. When `fn` is nil, `err`
is nil at both places. -/
def callFn (fn : Option ImplFn) (num : Int) (bottom : Nat) (out : Ctx) : Out PRes :=
  match fn with
  | none => .ok (out, none)
  | some f =>
    match f num bottom out with
    | .panic p => .panic p
    | .timeout => .timeout
    | .ok (o, err) => .ok (fixStatus o err, err)

/-- How one iteration of the `PARENT` loop ends: `count++` and go on, `break PARENT`, or `return`. -/
inductive IterEnd where
  | next (out : Ctx)
  | brk (out : Ctx)
  | ret (out : Ctx) (err : Option Err)

/-- One iteration of the `PARENT` loop: base.go:61-117. -/
def iteration (fn : Option ImplFn) (thereExists : Bool) (children : List Sem) (bottom count : Nat)
    (saved : Ctx) : Out IterEnd :=
  match childLoop thereExists children 0 saved with
  | .panic p => .panic p
  | .timeout => .timeout
  | .ok (.ret o e) => .ok (.ret o e)
  | .ok .unmatched => .ok (.brk saved)
  | .ok (.fell k out) =>
    if thereExists ∧ 0 < children.length ∧ k = 0 then .ok (.brk saved)
    else
      match callFn fn k bottom { out with qty := count } with
      | .panic p => .panic p
      | .timeout => .timeout
      | .ok (out, err) =>
        match out.status with
        | .error => .ok (.ret out err)
        | .unmatched => .ok (.brk saved)
        | .matched => .ok (.next out)

/-- How the `PARENT` loop ends: normally with the final `count` and `out`, or by `return`. -/
inductive LoopEnd where
  | done (count : Nat) (out : Ctx)
  | ret (out : Ctx) (err : Option Err)

/-- The `PARENT` loop `for ; qty.Max < 0 || count < qty.Max; count++`: base.go:60-118. `body` is one
iteration. The first number is `qty.Max - count` for a bounded loop, and fuel for an unbounded one. -/
def parentLoop (unbounded : Bool) (body : Nat → Ctx → Out IterEnd) : Nat → Nat → Ctx → Out LoopEnd
  | 0, count, out => if unbounded then .timeout else .ok (.done count out)
  | k + 1, count, out =>
    match body count out with
    | .panic p => .panic p
    | .timeout => .timeout
    | .ok (.ret o e) => .ok (.ret o e)
    | .ok (.brk o) => .ok (.done count o)
    | .ok (.next o) => parentLoop unbounded body k (count + 1) o

/-- `for _, transform := range tr`: base.go:155-161 (also match.go:28-34). -/
def applyTrs (ctx : Ctx) : List TSem → List Ast → Out (List Ast × Option Err)
  | [], asts => .ok (asts, none)
  | t :: ts, asts =>
    match t ctx asts with
    | .panic p => .panic p
    | .timeout => .timeout
    | .ok (asts', none) => applyTrs ctx ts asts'
    | .ok (asts', some e) => .ok (asts', some e)

/-- base.go:153-165: apply the transformers to the part of the stack above `len(ctx.AstStack)`.
Slicing panics when the stack has become shorter than that. -/
def applyTransforms (tr : Option (List TSem)) (ctx out : Ctx) : Out PRes :=
  match tr with
  | none => .ok (out, none)
  | some ts =>
    if out.stack.length < ctx.stack.length then .panic .index
    else
      match applyTrs ctx ts (out.stack.drop ctx.stack.length) with
      | .panic p => .panic p
      | .timeout => .timeout
      | .ok (_, some e) => .ok ({ out with status := .error }, some e)
      | .ok (asts, none) => .ok ({ out with stack := out.stack.take ctx.stack.length ++ asts }, none)

/-- base.go:124-131. -/
def negateStatus (negative : Bool) (o : Ctx) : Ctx :=
  if negative then
    match o.status with
    | .unmatched => { o with status := .matched }
    | .matched => { o with status := .unmatched }
    | .error => o
  else o

/-- base.go:120-122. -/
def checkMin (min : Int) (count : Nat) (o : Ctx) : Ctx :=
  if 0 ≤ min ∧ (count : Int) < min then { o with status := .unmatched } else o

/-- The code after the `PARENT` loop: base.go:120-165. `ctx` is the context the parser was called
with, with its class name replaced. -/
def afterLoop (f : Flags) (fn : Option ImplFn) (tr : Option (List TSem)) (ctx : Ctx) (count : Nat)
    (out : Ctx) : Out PRes :=
  let out := negateStatus f.negative (checkMin f.qty.min count out)
  if out.status ≠ .matched then .ok (out, none)
  else
    match callFn fn (-1) ctx.stack.length { out with qty := count } with
    | .panic p => .panic p
    | .timeout => .timeout
    | .ok (out, _) =>
      if out.status ≠ .matched then .ok (out, none)
      else applyTransforms tr ctx (if f.rewind then ctx else out)

/-- `BaseParser`: base.go:26-174, without the tracer. `fuel` bounds only the loop with `Max < 0`. -/
def baseParser (fuel : Nat) (cls : String) (fn : Option ImplFn) (props : List PropItem)
    (children : List Sem) (tr : Option (List TSem)) : Sem := fun ctx0 =>
  let f := readProps props
  let ctx := { ctx0 with cls := cls }
  let bottom := ctx.stack.length
  let out := { ctx with status := .matched }
  let unbounded := decide (f.qty.max < 0)
  let iters := if unbounded then fuel else f.qty.max.toNat
  match parentLoop unbounded (iteration fn f.thereExists children bottom) iters 0 out with
  | .panic p => .panic p
  | .timeout => .timeout
  | .ok (.ret o e) => .ok (o, e)
  | .ok (.done count out) => afterLoop f fn tr ctx count out

end Takenoco
