import Verif.Model.Transformers
/-
Layer A model of /repo/object/parsers.go and /repo/object/new.go. A nil `ctx.Slice` makes every one of
these parsers panic.
-/
namespace Takenoco

/-- `NewObjectParserContext`: new.go:8-13 (also base/production.go:16-26, with a tag). -/
def newObjCtx (src : SliceSrc) (tag : Value) : Ctx :=
  { str := [], slice := some src, pos := 0, len := 0, qty := 0, stack := [], status := .matched,
    cls := "", tag := tag }

/-- Append one AST with the current source position and advance by `length` (e.g.
object/parsers.go:16-24). -/
def pushObj (cls : String) (ty : AstType) (v : Value) (length : Nat) (ctx : Ctx) : Ctx :=
  { ctx with
    stack := ctx.stack ++ [{ Ast.zero with cls := cls, ty := ty, val := v, pos := ctx.pos, len := ctx.len }]
    pos := ctx.pos + length
    len := length
    status := .matched }

/-- `ctx.Slice` with its methods, or the panic of calling one on a nil interface. -/
def withSlice (f : SliceSrc → Ctx → Out PRes) : Sem := fun ctx =>
  match ctx.slice with
  | none => .panic .nilDeref
  | some src => f src { ctx with status := .unmatched }

/-- `Any`: parsers.go:9-28. -/
def objAny : Sem := lightParser ":object:Any" <| withSlice fun src ctx =>
  match src.items[ctx.pos]? with
  | some w => .ok (pushObj ":object:Any" .any w 1 ctx, none)
  | none => .ok (ctx, none)

/-- `End`: parsers.go:31-43. -/
def objEnd : Sem := lightParser ":object:End" <| withSlice fun src ctx =>
  if ctx.pos = src.items.length then .ok ({ ctx with len := 0, status := .matched }, none)
  else .ok (ctx, none)

/-- The comparison loop of `Seq`: parsers.go:54-58. It stops at the first difference, but its outcome is
not used. -/
def objSeqLoop (eq : Value → Value → Out Bool) : List Value → List Value → Out Unit
  | w :: ws, s :: ss =>
    match eq w s with
    | .ok true => objSeqLoop eq ws ss
    | .ok false => .ok ()
    | .panic p => .panic p
    | .timeout => .timeout
  | _, _ => .ok ()

/-- `Seq`: parsers.go:46-71. -/
def objSeq (seq : List Value) : Sem := lightParser ":object:Seq" <| withSlice fun src ctx =>
  if ctx.pos + seq.length ≤ src.items.length then
    let w := (src.items.drop ctx.pos).take seq.length
    match objSeqLoop src.itemEquals w seq with
    | .ok () => .ok (pushObj ":object:Seq" .listOfAny (.slice w) seq.length ctx, none)
    | .panic p => .panic p
    | .timeout => .timeout
  else .ok (ctx, none)

/-- `for _, s := range oc { if ctx.Slice.ItemEquals(w, s) ... }`: parsers.go:81-82, 108-109. -/
def anyEquals (eq : Value → Value → Out Bool) (w : Value) : List Value → Out Bool
  | [] => .ok false
  | s :: ss =>
    match eq w s with
    | .ok true => .ok true
    | .ok false => anyEquals eq w ss
    | .panic p => .panic p
    | .timeout => .timeout

/-- `ObjClass`: parsers.go:74-98. -/
def objClass (oc : List Value) : Sem := lightParser ":object:ObjClass" <| withSlice fun src ctx =>
  match src.items[ctx.pos]? with
  | none => .ok (ctx, none)
  | some w =>
    match anyEquals src.itemEquals w oc with
    | .ok true => .ok (pushObj ":object:ObjClass" .any w 1 ctx, none)
    | .ok false => .ok (ctx, none)
    | .panic p => .panic p
    | .timeout => .timeout

/-- `ObjClassN`: parsers.go:101-127 (pushes with type tag `AstType_String`). -/
def objClassN (oc : List Value) : Sem := lightParser ":object:ObjClassN" <| withSlice fun src ctx =>
  match src.items[ctx.pos]? with
  | none => .ok (ctx, none)
  | some w =>
    match anyEquals src.itemEquals w oc with
    | .ok true => .ok (ctx, none)
    | .ok false => .ok (pushObj ":object:ObjClassN" .string w 1 ctx, none)
    | .panic p => .panic p
    | .timeout => .timeout

/-- `ObjClassFn`: parsers.go:130-151. The user predicate may panic. -/
def objClassFn (fn : Value → Out Bool) : Sem :=
  lightParser ":object:ObjClassFn" <| withSlice fun src ctx =>
    match src.items[ctx.pos]? with
    | none => .ok (ctx, none)
    | some w =>
      match fn w with
      | .ok true => .ok (pushObj ":object:ObjClassFn" .any w 1 ctx, none)
      | .ok false => .ok (ctx, none)
      | .panic p => .panic p
      | .timeout => .timeout

end Takenoco
