import Verif.Model.Types
/-
Layer A model of `Ast.Traverse`: /repo/base/ast.go:92-245.
-/
namespace Takenoco

/-- `WayThereMode`: ast.go:92-103. Any value other than `Lazy` and `Last` acts like `None`. -/
inductive WayThereMode where
  | none | lazy | last
  deriving DecidableEq, Repr

/-- `TraverseOpcode`: ast.go:105-115. `other` stands for the values without a case in the switch at 212-219. -/
inductive TraverseOpcode where
  | nop | break_ | continue_ | other
  deriving DecidableEq, Repr

/-- The three callbacks of a traversal: ast.go:117-130. `σ` is whatever state they share (the `ctx` argument and
everything reachable from it), `T` the type of thrown values (`thrown != nil` is `some`), `E` the type of errors.
Simplifications: `pcIncr int16` is an integer; callbacks do not write to the slices of the trees they are given. -/
structure Visitor (σ T E : Type) where
  there : σ → Ast → Out (σ × Ast × WayThereMode × Option E)
  back : σ → Ast → Out (σ × Ast × Int × TraverseOpcode × Option T × Option E)
  childrenErr : σ → Ast → Ast → Option T → Option E → Out σ

/-- What `Traverse` returns. -/
structure Visited (T E : Type) where
  ast : Ast
  pcIncr : Int
  op : TraverseOpcode
  thrown : Option T
  err : Option E

/-- `thrown != nil || err != nil` -/
def Visited.failed {T E : Type} (r : Visited T E) : Bool := r.thrown.isSome || r.err.isSome

section
variable {σ T E : Type}

/-- `return s, 0, 0, thrown, err` after the call of `fnChildrenErr`: ast.go:176-177, 184-185, 208-209, 235-236. -/
def childFailed (v : Visitor σ T E) (w : σ) (s child : Ast) (r : Visited T E) : Out (σ × Visited T E) := do
  let w ← v.childrenErr w s child r.thrown r.err
  return (w, { ast := s, pcIncr := 0, op := .nop, thrown := r.thrown, err := r.err })

/-- `return fnWayBack(ctx, s)`: ast.go:244. -/
def wayBack (v : Visitor σ T E) (w : σ) (s : Ast) : Out (σ × Visited T E) := do
  let (w, a, pc, op, th, e) ← v.back w s
  return (w, { ast := a, pcIncr := pc, op := op, thrown := th, err := e })

/-- The loop over the children of a list: ast.go:228-239. `s` is the list; `trav` is the recursive call. The results are
collected in `slice`. -/
def listLoop (v : Visitor σ T E) (trav : σ → Ast → Out (σ × Visited T E)) (s : Ast) :
    σ → List Ast → List Ast → Out (σ × Visited T E)
  | w, slice, [] => wayBack v w { s with val := .list slice }
  | w, slice, x :: xs => do
    let (w, r) ← trav w x
    if r.failed then childFailed v w s x r
    else listLoop v trav s w (slice ++ [r.ast]) xs

/-- Where the loop over the children goes on: ast.go:212-221 and the `i++` of 203. -/
def nextIndex (len : Nat) (i : Int) (op : TraverseOpcode) (pcIncr : Int) : Int :=
  (match op with
    | .nop => i
    | .break_ => (len : Int) - 1
    | .continue_ => -1
    | .other => i) + pcIncr + 1

/-- The loop over the children of a list in mode `Last`: ast.go:193-223. `buf` is `slice[0]`; it is the zero `Ast` before the
first assignment (200). The first argument bounds the number of iterations. -/
def lastLoop (v : Visitor σ T E) (trav : σ → Ast → Out (σ × Visited T E)) (s : Ast) (orig : List Ast) :
    Nat → σ → Ast → Int → Out (σ × Visited T E)
  | 0, _, _, _ => .timeout
  | k + 1, w, buf, i =>
    if i < orig.length then
      if i < 0 then .panic .index
      else
        match orig[i.toNat]? with
        | .none => .panic .index
        | some x => do
          let (w, r) ← trav w x
          if r.failed then childFailed v w s x r
          else lastLoop v trav s orig k w (if r.op = .nop then r.ast else buf) (nextIndex orig.length i r.op r.pcIncr)
    else wayBack v w { s with val := .list (if orig = [] then [] else [buf]) }

/-- `Ast.Traverse`: ast.go:147-245. The first argument bounds the depth of the recursion (a callback can return a larger tree
than it was given). The value is reinterpreted according to the type tag without a check (`unsafe`, 170, 193, 226):
for a nil value that is a nil pointer, for any other value of the wrong type it has no defined behaviour. -/
def traverse (v : Visitor σ T E) : Nat → σ → Ast → Out (σ × Visited T E)
  | 0, _, _ => .timeout
  | n + 1, w, s => do
    let (w, s, mode, err) ← v.there w s
    match err with
    | some e => return (w, { ast := s, pcIncr := 0, op := .nop, thrown := .none, err := some e })
    | .none =>
      if mode = .lazy then wayBack v w s
      else
        match s.ty with
        | .astCons =>
          match s.val with
          | .cons car cdr => do
            let (w, r) ← traverse v n w car
            if r.failed then childFailed v w s r.ast r
            else
              let (w, r') ← traverse v n w cdr
              if r'.failed then childFailed v w s r'.ast r'
              else wayBack v w { s with val := .cons r.ast r'.ast }
          | .nil => .panic .nilDeref
          | _ => .panic .memory
        | .listOfAst =>
          match s.val with
          | .list orig =>
            if mode = .last then lastLoop v (traverse v n) s orig n w Ast.zero 0
            else listLoop v (traverse v n) s w [] orig
          | .nil => .panic .nilDeref
          | _ => .panic .memory
        | _ => wayBack v w s

end
end Takenoco
