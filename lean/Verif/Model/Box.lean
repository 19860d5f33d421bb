import Verif.Model.Types
/-
Model of the boxes over a Go map: /repo/base/box.go:150-397 (`MapContainerReflectionBox` and
`NotInitializedMapContainerReflectionBox`), together with the part of package `reflect` they use.

Simplifications: keys are values of a type `K` with decidable equality (a NaN inside a key, which is not equal to itself, is
left out); the contents of values are values of an abstract type `P`; the element type of the map is `interface{}` or a
concrete type, and only values of exactly this type can be assigned to a concrete type (Go also lets a named slice type be
assigned to the unnamed one). `ReflectionBox` (box.go:50-147) is in Model/ReflectBox.lean.
-/
namespace Takenoco.Boxes

/-- The kinds of `reflect` that the getters distinguish. -/
inductive Kind where
  | int | uint | float | bool | string | bytes | other
  deriving DecidableEq, Repr

/-- A concrete Go type: `name = 0` is `int64`, `uint64`, `float64`, `bool`, `string`, `[]byte`; any other number is another
type of this kind (`int8`, a defined type, …). -/
structure GoType where
  kind : Kind
  name : Nat
  deriving DecidableEq, Repr

/-- An `interface{}` value. -/
inductive Dyn (P : Type) where
  | nil
  | val (ty : GoType) (p : P)

/-- The element type of a map: `none` is `interface{}`. -/
abbrev Elem := Option GoType

/-- A Go map as seen through `reflect.Value`: `keyOk k` — `k` can be assigned to the key type and hashed. -/
structure Container (K P : Type) where
  elem : Elem
  isNil : Bool
  keyOk : K → Bool
  get : K → Option (Dyn P)

/-- `reflect.Value` as returned by `MapIndex`: the zero `Value`, a value of kind `Interface`, or a value of a concrete
type. -/
inductive RValue (P : Type) where
  | invalid
  | iface (d : Dyn P)
  | conc (ty : GoType) (p : P)

/-- What a getter returns: `any` for `GetAny`, `raw` for the other getters, `descr` for what `reflect.Value.String` returns
for a value that is not a string (a description of its type), `box` for `MapIndex`, `nothing` for `Index`: a `ReflectionBox` over the
zero `reflect.Value` (`Refl.RV.invalid` in Model/ReflectBox.lean). -/
inductive Got (K P : Type) where
  | any (d : Dyn P)
  | raw (p : P)
  | descr (ty : Option (Option GoType))
  | box (key : K)
  | nothing
  | unit

section
variable {K P B : Type} [DecidableEq K] [DecidableEq B]

/-- A panic inside package `reflect`. -/
def reflectPanic : Panic := .user "reflect"

/-- `panic(msgReferencedNonInitializedVariable)`: box.go:253. -/
def notInitialized : Panic := .user "Error: Non initialized variable is referenced."

/-- `reflect.Value.MapIndex`: panics when the key cannot be assigned to the key type; the zero `Value` for a missing key. -/
def mapIndex (c : Container K P) (k : K) : Out (RValue P) :=
  if c.keyOk k then
    match c.get k with
    | none => .ok .invalid
    | some d =>
      match c.elem, d with
      | none, d => .ok (.iface d)
      | some _, .val ty p => .ok (.conc ty p)
      | some _, .nil => .ok .invalid
  else .panic reflectPanic

/-- `reflect.Value.SetMapIndex(key, reflect.ValueOf(v))`: `reflect.ValueOf(nil)` is the zero `Value`, which deletes the key
(also from a nil map, where this does nothing); any other value must be assignable to the element type; assigning to a nil
map panics. -/
def setMapIndex (c : Container K P) (k : K) (v : Dyn P) : Out (Container K P) :=
  if c.keyOk k then
    match v with
    | .nil => .ok { c with get := fun k' => if k' = k then none else c.get k' }
    | .val ty p =>
      if c.elem = none ∨ c.elem = some ty then
        if c.isNil then .panic reflectPanic
        else .ok { c with get := fun k' => if k' = k then some (.val ty p) else c.get k' }
      else .panic reflectPanic
  else .panic reflectPanic

/-- The getters of a box; `GetAny` is `none`. -/
abbrev Getter := Option Kind

/-- `reflect.Value.Interface`, `.Int`, `.Uint`, `.Float`, `.Bool`, `.String`, `.Bytes`. -/
def readAs (g : Getter) (r : RValue P) : Out (Got K P) :=
  match g, r with
  | none, .invalid => .panic reflectPanic
  | none, .iface d => .ok (.any d)
  | none, .conc ty p => .ok (.any (.val ty p))
  | some .string, .invalid => .ok (.descr none)
  | some .string, .iface _ => .ok (.descr (some none))
  | some .string, .conc ty p => if ty.kind = .string then .ok (.raw p) else .ok (.descr (some (some ty)))
  | some .other, _ => .panic reflectPanic
  | some _, .invalid => .panic reflectPanic
  | some _, .iface _ => .panic reflectPanic
  | some k, .conc ty p => if ty.kind = k then .ok (.raw p) else .panic reflectPanic

/-- A box: its key, and whether it is a `NotInitializedMapContainerReflectionBox`. -/
structure BoxInfo (K : Type) where
  key : K
  guarded : Bool

/-- The map, and the `Initialized` fields of the boxes. -/
structure World (K P B : Type) where
  cont : Container K P
  init : B → Bool

/-- The methods of a box: `get` is `GetAny`, `GetInt`, …; `set` is `SetAny`, or `SetInt(p)`, … for a value of the type
`int64`, …; `sub` is `MapIndex` and `ComplexMapIndex`; `index` is `Index(i)`, which does not look at `i`. -/
inductive Op (K P B : Type) where
  | get (b : B) (g : Getter)
  | set (b : B) (v : Dyn P)
  | sub (b : B) (k : K)
  | index (b : B) (i : Int)

/-- One method call on a box. box.go:150-251 for unguarded boxes, 255-397 for guarded ones: the getters, `MapIndex` and `Index` panic
unless `Initialized`; the setters write first and then set `Initialized`. -/
def call (boxes : B → BoxInfo K) (w : World K P B) : Op K P B → Out (World K P B × Got K P)
  | .get b g =>
    if (boxes b).guarded && !w.init b then .panic notInitialized
    else do
      let r ← mapIndex w.cont (boxes b).key
      let x ← readAs g r
      return (w, x)
  | .set b v => do
    let c ← setMapIndex w.cont (boxes b).key v
    if (boxes b).guarded then return ({ cont := c, init := fun b' => if b' = b then true else w.init b' }, .unit)
    else return ({ w with cont := c }, .unit)
  | .sub b k =>
    if (boxes b).guarded && !w.init b then .panic notInitialized
    else return (w, .box k)
  | .index b _ =>
    if (boxes b).guarded && !w.init b then .panic notInitialized
    else return (w, .nothing)

/-- A history of calls; a call that panics (and whose panic is recovered) leaves everything as it was. -/
def history (boxes : B → BoxInfo K) : World K P B → List (Op K P B) → World K P B
  | w, [] => w
  | w, o :: os =>
    match call boxes w o with
    | .ok (w', _) => history boxes w' os
    | _ => history boxes w os

end
end Takenoco.Boxes
