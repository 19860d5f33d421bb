import Verif.Model.Parsers
/-
Layer A model of /repo/base/transformers.go (rest), of the `TopIs*` guards in /repo/base/match.go, and
of `AstSlice.ItemEquals` in /repo/base/ast.go.
-/
namespace Takenoco

/-- `ToSlice`: transformers.go:37-54. `ctx.Slice.Make` on a nil `Slice` panics; `Set` panics when the
element type does not fit. -/
def toSlice : TSem := fun ctx asts =>
  match ctx.slice with
  | none => .panic .nilDeref
  | some src =>
    match asts with
    | [] => .ok ([{ Ast.zero with ty := .listOfAny, val := .slice [] }], none)
    | a :: _ =>
      if asts.all (fun w => src.accepts w.val) then
        .ok ([{ Ast.zero with
          cls := a.cls, ty := .listOfAny, val := .slice (asts.map (·.val)), pos := a.pos, len := a.len }],
          none)
      else .panic .typeAssert

/-- Rewrite the head of a copy of `asts`: the common shape of transformers.go:58-108. -/
def rewriteHead (f : Ast → Ast) : TSem := fun _ asts =>
  match asts with
  | [] => .ok ([], none)
  | a :: as => .ok (f a :: as, none)

/-- `SetOpCodeAndClassName`: transformers.go:58-68. -/
def setOpCodeAndClassName (opcode : UInt64) (name : String) : TSem :=
  rewriteHead fun a => { a with opCode := opcode, cls := name }
/-- `SetOpCode`: transformers.go:72-81. -/
def setOpCode (opcode : UInt64) : TSem := rewriteHead fun a => { a with opCode := opcode }
/-- `ChangeClassName`: transformers.go:85-94. -/
def changeClassName (name : String) : TSem := rewriteHead fun a => { a with cls := name }
/-- `SetValue`: transformers.go:98-108. -/
def setValue (typ : AstType) (v : Value) : TSem := rewriteHead fun a => { a with ty := typ, val := v }

/-- `Prepend`: transformers.go:112-122. The returned closure assigns to the captured variable `ast`,
so one call takes the current content of that variable and also returns its new content. -/
def prependStep (ast : Ast) (asts : List Ast) : List Ast × Ast :=
  let ast := match asts with
    | [] => ast
    | a :: _ => { ast with pos := a.pos, len := a.len }
  (ast :: asts, ast)

/-- `Push`: transformers.go:126-136. Same remark about the captured variable. -/
def pushStep (ast : Ast) (asts : List Ast) : List Ast × Ast :=
  let ast := match asts.getLast? with
    | none => ast
    | some a => { ast with pos := a.pos, len := a.len }
  (asts ++ [ast], ast)

/-- The results of successive calls of one `Prepend`/`Push` closure. -/
def calls (step : Ast → List Ast → List Ast × Ast) : Ast → List (List Ast) → List (List Ast)
  | _, [] => []
  | s, x :: xs => (step s x).1 :: calls step (step s x).2 xs

/-- `Pop`: transformers.go:140-146. -/
def pop : TSem := fun _ asts => .ok (asts.dropLast, none)

/-- Go index assignment `l[i] = v`. -/
def goSet {α : Type} (l : List α) (i : Nat) (v : α) : Out (List α) :=
  if i < l.length then .ok (l.set i v) else .panic .index

/-- Go index expression `l[i]`. -/
def goGet {α : Type} (l : List α) (i : Nat) : Out α :=
  match l[i]? with
  | some a => .ok a
  | none => .panic .index

/-- `Exchange`: transformers.go:150-161. `w` is made with length 0 and `append`ed `asts[:length-2]`, so
its length is `length-2` and the assignment `w[length-2] = ...` is out of range. -/
def exchange : TSem := fun _ asts => do
  let length := asts.length
  if 2 ≤ length then
    let w := asts.take (length - 2)
    let w ← goSet w (length - 2) (← goGet asts (length - 1))
    let w ← goSet w (length - 1) (← goGet asts (length - 2))
    return (w, none)
  else return (asts, none)

/-- `Roll`: transformers.go:175-193. All four branches return `asts`. -/
def roll (n : Int) : TSem := fun _ asts =>
  if 0 ≤ n then
    if n < asts.length then .ok (asts, none) else .ok (asts, none)
  else
    if -n < asts.length then .ok (asts, none) else .ok (asts, none)

/-- Go `==` on `float64`, on IEEE-754 bit patterns: NaN is unequal to everything, `+0 == -0`. -/
def floatEq (a b : UInt64) : Bool :=
  let mag (x : UInt64) : Nat := x.toNat % 2 ^ 63
  let isNaN (x : UInt64) : Bool := 0x7ff0000000000000 < mag x
  !isNaN a && !isNaN b && (a == b || (mag a == 0 && mag b == 0))

mutual
/-- `reflect.DeepEqual` on the modelled values. Functions are never deeply equal. -/
def Value.deepEq : Value → Value → Bool
  | .nil, .nil => true
  | .rune a, .rune b => a == b
  | .int a, .int b => a == b
  | .uint a, .uint b => a == b
  | .float a, .float b => floatEq a b
  | .bool a, .bool b => a == b
  | .str a, .str b => a == b
  | .cons a b, .cons c d => a.deepEq c && b.deepEq d
  | .list a, .list b => Ast.deepEqL a b
  | .strs a, .strs b => a == b
  | .strss a, .strss b => a == b
  | .ast a, .ast b => a.deepEq b
  | .slice a, .slice b => Value.deepEqL a b
  | .time a b, .time c d => a == c && b == d
  | .opaque a, .opaque b => a == b
  | _, _ => false
/-- `reflect.DeepEqual` on `Ast` (all fields). -/
def Ast.deepEq : Ast → Ast → Bool
  | ⟨o, c, t, v, p, l⟩, ⟨o', c', t', v', p', l'⟩ =>
    o == o' && c == c' && t == t' && v.deepEq v' && p == p' && l == l'
/-- element-wise -/
def Ast.deepEqL : List Ast → List Ast → Bool
  | [], [] => true
  | a :: as, b :: bs => a.deepEq b && Ast.deepEqL as bs
  | _, _ => false
/-- element-wise -/
def Value.deepEqL : List Value → List Value → Bool
  | [], [] => true
  | a :: as, b :: bs => a.deepEq b && Value.deepEqL as bs
  | _, _ => false
end

mutual
/-- `AstSlice.ItemEquals` on two `Ast`s: ast.go:292-322. The type assertions `wa.Value.(AstCons)` and
`wa.Value.(AstSlice)` panic when the dynamic type differs from the type tag. -/
def Ast.itemEquals : Ast → Ast → Out Bool
  | ⟨_, ca, ta, va, _, _⟩, ⟨_, cb, tb, vb, _, _⟩ =>
    if ca = cb ∧ ta = tb then
      match ta with
      | .astCons => Value.itemEqualsCons va vb
      | .listOfAst => Value.itemEqualsList va vb
      | _ => .ok (va.deepEq vb)
    else .ok false
/-- ast.go:294-303 -/
def Value.itemEqualsCons : Value → Value → Out Bool
  | .cons a b, .cons c d => do
    if !(← a.itemEquals c) then return false
    if !(← b.itemEquals d) then return false
    return true
  | _, _ => .panic .typeAssert
/-- ast.go:304-316 -/
def Value.itemEqualsList : Value → Value → Out Bool
  | .list a, .list b => if a.length = b.length then Ast.itemEqualsL a b else .ok false
  | _, _ => .panic .typeAssert
/-- ast.go:308-313 -/
def Ast.itemEqualsL : List Ast → List Ast → Out Bool
  | a :: as, b :: bs => do
    if !(← a.itemEquals b) then return false
    Ast.itemEqualsL as bs
  | _, _ => .ok true
end

/-- `AstSlice.ItemEquals`: ast.go:289-323. The arguments are `interface{}`s asserted to be `Ast`. -/
def astItemEquals : Value → Value → Out Bool
  | .ast a, .ast b => a.itemEquals b
  | _, _ => .panic .typeAssert

/-- An `AstSlice` as a `SliceLike` source: ast.go:253-323. -/
def astSliceSrc (asts : List Ast) : SliceSrc where
  items := asts.map .ast
  itemEquals := astItemEquals
  accepts v := match v with
    | .ast _ => true
    | _ => false

/-- The last AST's value, `asts[len(asts)-1].Value`, if any (match.go:49-50 and so on). -/
def topVal (asts : List Ast) : Option Value := asts.getLast?.map (·.val)

/-- `TopIsRune`: match.go:47-64. -/
def topIsRune (vs : List Int32) (asts : List Ast) : Bool :=
  match topVal asts with
  | some (.rune s) => vs.any (s == ·)
  | _ => false
/-- `TopIsInt`: match.go:67-84. -/
def topIsInt (vs : List Int64) (asts : List Ast) : Bool :=
  match topVal asts with
  | some (.int s) => vs.any (s == ·)
  | _ => false
/-- `TopIsUint`: match.go:87-104. -/
def topIsUint (vs : List UInt64) (asts : List Ast) : Bool :=
  match topVal asts with
  | some (.uint s) => vs.any (s == ·)
  | _ => false
/-- `TopIsFloat`: match.go:107-124. -/
def topIsFloat (vs : List UInt64) (asts : List Ast) : Bool :=
  match topVal asts with
  | some (.float s) => vs.any (floatEq s ·)
  | _ => false
/-- `TopIsBool`: match.go:127-144. -/
def topIsBool (vs : List Bool) (asts : List Ast) : Bool :=
  match topVal asts with
  | some (.bool s) => vs.any (s == ·)
  | _ => false
/-- `TopIsStr`: match.go:147-164. -/
def topIsStr (vs : List Bytes) (asts : List Ast) : Bool :=
  match topVal asts with
  | some (.str s) => vs.any (s == ·)
  | _ => false
/-- `TopIs`: match.go:167-181. -/
def topIs (vs : List Value) (asts : List Ast) : Bool :=
  match topVal asts with
  | some s => vs.any (s.deepEq ·)
  | none => false
/-- `TopIsAny`: match.go:184-186. -/
def topIsAny (_ : List Ast) : Bool := true

end Takenoco
