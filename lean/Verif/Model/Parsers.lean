import Verif.Model.Base
/-
Layer A model of /repo/base/parsers.go and of the base classes in /repo/base/classes/classes.go,
/repo/base/transformers.go, /repo/base/match.go.
-/
namespace Takenoco

/-- `If`: parsers.go:23-29 (decided at construction time). -/
def ifP (b : Bool) (fnT fnF : Sem) : Sem := if b then fnT else fnF

/-- `Indirect`: parsers.go:11-20. `p` is what `fn()` returns; memoising it in the captured variable is
not observable because constructors are deterministic. -/
def indirect (p : Sem) : Sem := lightParser ":base:Indirect" p

/-- `Error`: parsers.go:32-39. -/
def errorP (msg : String) : Sem := lightParser ":base:Error" fun ctx =>
  .ok ({ ctx with len := 0, status := .error }, some (.msg msg))

/-- `Unmatched`: parsers.go:42-49. -/
def unmatchedP : Sem := lightParser ":base:Unmatched" fun ctx =>
  .ok ({ ctx with len := 0, status := .unmatched }, none)

/-- `Zero`: parsers.go:52-64. The appended copies get the current source position. -/
def zeroP (asts : List Ast) : Sem := lightParser ":base:Zero" fun ctx =>
  .ok ({ ctx with
    stack := ctx.stack ++ asts.map (fun a => { a with pos := ctx.pos, len := ctx.len })
    len := 0
    status := .matched }, none)

/-- `Start`: parsers.go:67-79. -/
def startP : Sem := lightParser ":base:Start" fun ctx =>
  if ctx.pos = 0 then .ok ({ ctx with len := 0, status := .matched }, none)
  else .ok ({ ctx with status := .unmatched }, none)

/-- `FlatGroup`: parsers.go:83-86. (`Max` is 1, so no fuel is needed.) -/
def flatGroup (children : List Sem) : Sem := baseParser 0 ":base:FlatGroup" none [] children none

/-- `Erase`: transformers.go:11-13. -/
def erase : TSem := fun _ _ => .ok ([], none)

/-- `TransformError`: transformers.go:17-21. -/
def transformError (s : String) : TSem := fun _ asts => .ok (asts, some (.msg s))

/-- `GroupingTransform`: transformers.go:25-33. -/
def groupingTransform : TSem := fun _ asts =>
  .ok ([{ Ast.zero with cls := ":base:Group", ty := .listOfAst, val := .list asts }], none)

/-- `Group`: parsers.go:89-92. -/
def group (children : List Sem) : Sem :=
  baseParser 0 ":base:Group" none [] children (some [groupingTransform])

/-- `First`: parsers.go:95-98. -/
def first (children : List Sem) : Sem :=
  baseParser 0 ":base:First" none [.thereExists] children none

/-- `LookAhead`: parsers.go:110-113. -/
def lookAhead (children : List Sem) : Sem :=
  baseParser 0 ":base:LookAhead" none [.rewind] children none

/-- `LookAheadN`: parsers.go:116-119. -/
def lookAheadN (children : List Sem) : Sem :=
  baseParser 0 ":base:LookAheadN" none [.rewind, .negative] children none

/-- The loop `for i := minN; i <= maxN; i++` of `lookBehindBase`: parsers.go:131-151. The first number
is the number of remaining values of `i`. Falling out of the loop is parsers.go:152-158. On a positive
match the code returns `ctx` (not `out`): parsers.go:146-148. -/
def lookBehindLoop (negative : Bool) (parser : Sem) (ctx : Ctx) : Nat → Int → Out PRes
  | 0, _ => .ok ({ ctx with status := if negative then .matched else .unmatched }, none)
  | k + 1, i =>
    if (ctx.pos : Int) - i < 0 then lookBehindLoop negative parser ctx k (i + 1)
    else
      match parser { ctx with pos := ((ctx.pos : Int) - i).toNat } with
      | .panic p => .panic p
      | .timeout => .timeout
      | .ok (out, some e) => .ok (out, some e)
      | .ok (out, none) =>
        if out.status = .matched then
          if negative then .ok ({ out with status := .unmatched }, none) else .ok (ctx, none)
        else lookBehindLoop negative parser ctx k (i + 1)

/-- `lookBehindBase`: parsers.go:122-160. -/
def lookBehindBase (negative : Bool) (minN maxN : Int) (children : List Sem) : Sem := fun ctx =>
  lookBehindLoop negative
    (baseParser 0 (if negative then ":base:LookBehindN" else ":base:LookBehind") none [.rewind]
      children none)
    ctx (maxN - minN + 1).toNat minN

/-- `LookBehind`: parsers.go:163-165. -/
def lookBehind (minN maxN : Int) (children : List Sem) : Sem :=
  lookBehindBase false minN maxN children

/-- `LookBehindN`: parsers.go:168-170. -/
def lookBehindN (minN maxN : Int) (children : List Sem) : Sem :=
  lookBehindBase true minN maxN children

/-- `Repeat`: parsers.go:175-178. -/
def repeatP (fuel : Nat) (times : Times) (children : List Sem) : Sem :=
  baseParser fuel ":base:Repeat" none [.times times] children none

/-- `Once`: parsers.go:183-185. -/
def once (children : List Sem) : Sem := repeatP 0 qtyOnce children
/-- `ZeroOrOnce`: parsers.go:188-190. -/
def zeroOrOnce (children : List Sem) : Sem := repeatP 0 qtyZeroOrOnce children
/-- `ZeroOrMoreTimes`: parsers.go:193-195. -/
def zeroOrMoreTimes (fuel : Nat) (children : List Sem) : Sem := repeatP fuel qtyZeroOrMoreTimes children
/-- `OneOrMoreTimes`: parsers.go:198-200. -/
def oneOrMoreTimes (fuel : Nat) (children : List Sem) : Sem := repeatP fuel qtyOneOrMoreTimes children

/-- A variadic parameter `tr ...TransformerFn` is nil when no arguments are given. (Simplification:
passing an empty non-nil slice with `...` is not modelled.) -/
def variadic (tr : List TSem) : Option (List TSem) := if tr.isEmpty then none else some tr

/-- `Trans`: parsers.go:203-206. -/
def trans (child : Sem) (tr : List TSem) : Sem :=
  baseParser 0 ":base:Trans" none [] [child] (variadic tr)

/-- `Match`: match.go:15-44. A case is its guard `If` and its transformers `Let`. When a guard holds,
`ctx.AstStack[sp:]` panics unless `0 <= sp <= len`. -/
def matchFn (n : Int) : List ((List Ast → Bool) × List TSem) → Sem
  | [], ctx => .ok ({ ctx with len := 0, status := .unmatched }, none)
  | (guard, trs) :: cases, ctx =>
    if guard ctx.stack then
      let ctx := { ctx with len := 0, status := .unmatched }
      let sp : Int := (ctx.stack.length : Int) - n
      if sp < 0 ∨ (ctx.stack.length : Int) < sp then .panic .index
      else
        match applyTrs ctx trs (ctx.stack.drop sp.toNat) with
        | .panic p => .panic p
        | .timeout => .timeout
        | .ok (_, some e) => .ok ({ ctx with status := .error }, some e)
        | .ok (asts, none) =>
          .ok ({ ctx with stack := ctx.stack.take sp.toNat ++ asts, status := .matched }, none)
    else matchFn n cases ctx

/-- `Match`: match.go:15-44. -/
def matchP (n : Int) (cases : List ((List Ast → Bool) × List TSem)) : Sem :=
  lightParser "Match" (matchFn n cases)

end Takenoco
