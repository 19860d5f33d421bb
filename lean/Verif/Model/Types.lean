/-
Layer A model of takenoco: data types.

Models /repo/base/types.go, /repo/base/const.go and the data types of /repo/base/ast.go.
-/

namespace Takenoco

/-- A Go `string`: an arbitrary sequence of bytes, not necessarily valid UTF-8. -/
abbrev Bytes := List UInt8

/-- `b! "abc"` is the list of the UTF-8 bytes of the literal (a Go string constant). -/
macro:max "b!" s:str : term => do
  let bs := s.getString.toUTF8.toList
  let xs ← bs.toArray.mapM (fun b => `(($(Lean.quote b.toNat) : UInt8)))
  `(([$xs,*] : Bytes))

/-- Reasons for a Go run-time panic that the modelled code can raise. -/
inductive Panic where
  /-- index or slice bounds out of range -/
  | index
  /-- method call on a nil interface -/
  | nilDeref
  /-- failed single-value type assertion -/
  | typeAssert
  /-- integer division by zero -/
  | divZero
  /-- explicit `panic(msg)` -/
  | user (msg : String)
  /-- the Go code reinterprets memory of the wrong dynamic type (`unsafe`): no defined behaviour -/
  | memory
  deriving DecidableEq, Repr

/-- Outcome of running a piece of Go code: it returns, it panics, or the fuel given to the model for
unbounded loops and recursion was not enough (`timeout` is not an outcome of the Go code; a run that
times out for every fuel models a Go run that does not terminate). -/
inductive Out (α : Type) where
  | ok (a : α)
  | panic (p : Panic)
  | timeout
  deriving DecidableEq, Repr

namespace Out

/-- Sequencing: panics and timeouts propagate. -/
def bind {α β : Type} : Out α → (α → Out β) → Out β
  | .ok a, f => f a
  | .panic p, _ => .panic p
  | .timeout, _ => .timeout

instance : Monad Out where
  pure := .ok
  bind := Out.bind

@[simp] theorem bind_ok {α β : Type} (a : α) (f : α → Out β) : (Out.ok a >>= f) = f a := rfl
@[simp] theorem bind_panic {α β : Type} (p : Panic) (f : α → Out β) :
    ((Out.panic p : Out α) >>= f) = .panic p := rfl
@[simp] theorem bind_timeout {α β : Type} (f : α → Out β) :
    ((Out.timeout : Out α) >>= f) = .timeout := rfl
@[simp] theorem pure_eq {α : Type} (a : α) : (pure a : Out α) = .ok a := rfl

end Out

/-- `AstType` and its constants: /repo/base/ast.go:9-39. -/
inductive AstType where
  | nil | rune | int | uint | float | bool | string | astCons | listOfAst | listOfAny | function | any
  deriving DecidableEq, Repr

mutual
/-- `Ast`: /repo/base/ast.go:75-88. `SourcePosition` is flattened into `pos` and `len`
(types.go:22-27). Simplification: the `Address Box` field, which no parser or transformer reads or
writes, is dropped; class names are Lean strings (only compared for equality). -/
structure Ast where
  opCode : UInt64
  cls : String
  ty : AstType
  val : Value
  pos : Nat
  len : Nat

/-- The dynamic values an `interface{}` holds in the modelled code (`Ast.Value`, ast.go:83;
elements of source slices; `ParserContext.Tag`). `float` is the IEEE-754 bit pattern. `strs`/`strss`
are `[]string`/`[][]string` (csv example), `slice` is a `SliceLike` value made by `ToSlice`, `ast` is
an `Ast` stored as an `interface{}` (elements of an `AstSlice` seen as a source), `time` is a
`time.Time` in UTC without monotonic reading (Unix seconds and nanoseconds), `func`/`opaque` are
any other user values, identified by a number. -/
inductive Value where
  | nil
  | rune (r : Int32)
  | int (i : Int64)
  | uint (u : UInt64)
  | float (bits : UInt64)
  | bool (b : Bool)
  | str (s : Bytes)
  | cons (car cdr : Ast)
  | list (l : List Ast)
  | strs (l : List Bytes)
  | strss (l : List (List Bytes))
  | ast (a : Ast)
  | slice (l : List Value)
  | time (unix : Int) (nanos : Nat)
  | func (id : Nat)
  | opaque (id : Nat)
end

/-- The zero `Ast` (Go zero value of the struct). -/
def Ast.zero : Ast := { opCode := 0, cls := "", ty := .nil, val := .nil, pos := 0, len := 0 }

instance : Inhabited Ast := ⟨Ast.zero⟩

/-- Why `strconv` rejects a number. -/
inductive NumErr where
  | syntax | range | base
  deriving DecidableEq, Repr

/-- Go `error` values created by the modelled code. Message texts that are assembled from parts are
kept as their parts. -/
inductive Err where
  /-- `errors.New(msg)` -/
  | msg (s : String)
  /-- string/transformers.go:29 -/
  | concatBadType (t : AstType)
  /-- string/transformers.go:83,117,148 -/
  | badNumber (impl : String) (input : Bytes) (why : NumErr)
  /-- an error returned by `strconv` itself (formula.go:39) -/
  | strconv (input : Bytes) (why : NumErr)
  /-- a `*time.ParseError` returned by `time.Parse` (extra/transformers.go:15,30,45) -/
  | timeParse (input : Bytes)
  /-- an error returned by user code -/
  | user (id : Nat)
  deriving DecidableEq, Repr

/-- `MatchStatusType`: types.go:39-48. Simplification: the type is an `int` in Go; only the three
declared constants are modelled. -/
inductive Status where
  | matched | unmatched | error
  deriving DecidableEq, Repr

/-- `SliceLike` (types.go:4-19) as a source: the elements, `ItemEquals` (which may panic on a failed
type assertion) and which values `Set` accepts without panicking. -/
structure SliceSrc where
  items : List Value
  itemEquals : Value → Value → Out Bool
  accepts : Value → Bool

/-- `ParserContext`: types.go:65-82. `slice = none` is a nil `Slice` (method calls on it panic).
`SourcePosition` is flattened into `pos`, `len`. Simplification: `Position`, `Length`, `Quantity` are
naturals (the library never makes them negative). -/
structure Ctx where
  str : Bytes
  slice : Option SliceSrc
  pos : Nat
  len : Nat
  qty : Nat
  stack : List Ast
  status : Status
  cls : String
  tag : Value

/-- `Times`: types.go:85-90. -/
structure Times where
  min : Int
  max : Int
  deriving DecidableEq, Repr

/-- const.go:6-9 -/
def qtyOnce : Times := ⟨1, 1⟩
/-- const.go:11-14 -/
def qtyZeroOrOnce : Times := ⟨0, 1⟩
/-- const.go:16-19 -/
def qtyZeroOrMoreTimes : Times := ⟨0, -1⟩
/-- const.go:21-24 -/
def qtyOneOrMoreTimes : Times := ⟨1, -1⟩

/-- The elements of `BaseParser`'s `props []interface{}`: types.go:85-110. Any other dynamic type is
ignored by base.go:36-47. -/
inductive PropItem where
  | times (t : Times)
  | negative
  | thereExists
  | rewind
  | other
  deriving DecidableEq, Repr

/-- What a Go function returning `(ParserContext, error)` returns. -/
abbrev PRes := Ctx × Option Err

/-- `ParserFn` / `LightParserImplFn`: types.go:113,119. -/
abbrev Sem := Ctx → Out PRes

/-- `ParserImplFn`: types.go:116. Arguments `numChildrenMatched` (-1 for the final call),
`bottomOfAst`, `ctx`. -/
abbrev ImplFn := Int → Nat → Ctx → Out PRes

/-- `TransformerFn`: types.go:122. -/
abbrev TSem := Ctx → List Ast → Out (List Ast × Option Err)

end Takenoco
