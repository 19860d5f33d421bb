import Verif.Model.Traverse
/-
Specification vocabulary for `Ast.Traverse`: which callbacks are called, in which order.
-/
namespace Takenoco.Spec

/-- A call of a callback, with arguments and results. -/
inductive Call (T E : Type) where
  | there (a out : Ast) (mode : WayThereMode) (err : Option E)
  | back (a out : Ast) (thrown : Option T) (err : Option E)
  | childrenErr (a child : Ast) (thrown : Option T) (err : Option E)

/-- The same callbacks, with a record of the calls. -/
def logged {σ T E : Type} (v : Visitor σ T E) : Visitor (σ × List (Call T E)) T E where
  there w a := do
    let (w', out, mode, err) ← v.there w.1 a
    return ((w', w.2 ++ [.there a out mode err]), out, mode, err)
  back w a := do
    let (w', out, pc, op, th, err) ← v.back w.1 a
    return ((w', w.2 ++ [.back a out th err]), out, pc, op, th, err)
  childrenErr w a child th err := do
    let w' ← v.childrenErr w.1 a child th err
    return (w', w.2 ++ [.childrenErr a child th err])

/-- `Trail l open_`: the calls `l` are way-there and way-back calls without failures, each way-back call belongs to the
innermost node that has been entered and not yet left, and `open_` are the nodes that are still to be left, innermost
first. -/
inductive Trail {T E : Type} : List (Call T E) → List Ast → Prop where
  | nil : Trail [] []
  | there {l : List (Call T E)} {st : List Ast} (a s : Ast) (mode : WayThereMode) : Trail l st →
      Trail (l ++ [.there a s mode none]) (s :: st)
  | back {l : List (Call T E)} {s : Ast} {st : List Ast} (val : Value) (out : Ast) : Trail l (s :: st) →
      Trail (l ++ [.back { s with val := val } out none none]) st

/-- The calls of `fnChildrenErr` for the nodes `st`, in this order, with this thrown value and error. -/
inductive Unwound {T E : Type} (th : Option T) (e : Option E) : List Ast → List (Call T E) → Prop where
  | nil : Unwound th e [] []
  | cons {st : List Ast} {cs : List (Call T E)} (s child : Ast) : Unwound th e st cs →
      Unwound th e (s :: st) (.childrenErr s child th e :: cs)

/-- After the calls `l`, with the nodes `open_` entered and not left, a callback fails with this thrown value and error,
and the nodes in `left` remain to be told. -/
inductive Failing {T E : Type} (th : Option T) (e : Option E) : Call T E → (open_ left : List Ast) → Prop where
  | there (a out : Ast) (mode : WayThereMode) (st : List Ast) : th = none → e.isSome = true →
      Failing th e (.there a out mode e) st st
  | back (s out : Ast) (val : Value) (st : List Ast) : th.isSome = true ∨ e.isSome = true →
      Failing th e (.back { s with val := val } out th e) (s :: st) st

/-- The type tags in the tree are right as far as the traversal relies on them. -/
inductive Tagged : Ast → Prop where
  | leaf {a : Ast} : a.ty ≠ .astCons → a.ty ≠ .listOfAst → Tagged a
  | cons {a x y : Ast} : a.ty = .astCons → a.val = .cons x y → Tagged x → Tagged y → Tagged a
  | list {a : Ast} {l : List Ast} : a.ty = .listOfAst → a.val = .list l → (∀ x ∈ l, Tagged x) → Tagged a

/-- The callbacks return their argument without a failure; the way-there callback asks for `mode`. -/
structure IdleVisitor {σ T E : Type} (v : Visitor σ T E) (mode : Ast → WayThereMode) : Prop where
  there : ∀ w a, ∃ w', v.there w a = .ok (w', a, mode a, none)
  back : ∀ w a, ∃ w', v.back w a = .ok (w', a, 0, .nop, none, none)

/-- The depth-first walk over a list of trees with callbacks that return their argument: the results and the calls.
`mode` is what the way-there callback asks for at a node. -/
inductive Walk {T E : Type} (mode : Ast → WayThereMode) : List Ast → List Ast → List (Call T E) → Prop where
  | nil : Walk mode [] [] []
  | leaf {a : Ast} {rest outs : List Ast} {cs : List (Call T E)} :
      mode a = .lazy ∨ a.ty ≠ .astCons ∧ a.ty ≠ .listOfAst → Walk mode rest outs cs →
      Walk mode (a :: rest) (a :: outs) (.there a a (mode a) none :: .back a a none none :: cs)
  | cons {a x y x' y' : Ast} {rest outs : List Ast} {ci cs : List (Call T E)} :
      mode a ≠ .lazy → a.ty = .astCons → a.val = .cons x y → Walk mode [x, y] [x', y'] ci → Walk mode rest outs cs →
      Walk mode (a :: rest) ({ a with val := .cons x' y' } :: outs)
        (.there a a (mode a) none :: ci ++
          .back { a with val := .cons x' y' } { a with val := .cons x' y' } none none :: cs)
  | list {a : Ast} {l l' rest outs : List Ast} {ci cs : List (Call T E)} :
      mode a = .none → a.ty = .listOfAst → a.val = .list l → Walk mode l l' ci → Walk mode rest outs cs →
      Walk mode (a :: rest) ({ a with val := .list l' } :: outs)
        (.there a a (mode a) none :: ci ++ .back { a with val := .list l' } { a with val := .list l' } none none :: cs)
  | last {a : Ast} {l l' rest outs : List Ast} {ci cs : List (Call T E)} :
      mode a = .last → a.ty = .listOfAst → a.val = .list l → Walk mode l l' ci → Walk mode rest outs cs →
      Walk mode (a :: rest) ({ a with val := .list l'.getLast?.toList } :: outs)
        (.there a a (mode a) none :: ci ++
          .back { a with val := .list l'.getLast?.toList } { a with val := .list l'.getLast?.toList } none none :: cs)

end Takenoco.Spec
