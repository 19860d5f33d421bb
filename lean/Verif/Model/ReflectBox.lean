import Verif.Model.Types
/-
Model of `ReflectionBox`: /repo/base/box.go:50-147, together with the part of package `reflect` it uses, over a memory of
variables that can be reached through several boxes.

Simplifications: types are the ones listed in `Ty` (no structs, pointers, channels; a defined type such as `type T int` is
`other`), and a value can be assigned to a variable of exactly its type or to an `interface{}`; there are no values obtained from unexported
fields (`flagRO`); a backing array and the variables in it stay where they are (Go never moves what a `reflect.Value`
refers to). `Bytes` is that of Go before 1.19 (go.mod says 1.17), which does not accept arrays.
-/
namespace Takenoco.Refl

/-- Go types. `int` and `uint` have 64 bits. -/
inductive Ty where
  | int (bits : Nat)
  | uint (bits : Nat)
  | float (bits : Nat)
  | bool
  | string
  /-- `interface{}` -/
  | any
  | slice (elem : Ty)
  | array (n : Nat) (elem : Ty)
  | map (key elem : Ty)
  | other (id : Nat)
  deriving DecidableEq, Repr

/-- A slice: number of its backing array, offset, length. -/
structure Hdr where
  arr : Nat
  off : Nat
  len : Nat
  deriving DecidableEq, Repr

/-- Contents of a variable. Floats are bit patterns of `float64`, also for `float32`. A map is the number of its hash table. -/
inductive Cell where
  | int (i : Int)
  | uint (n : Nat)
  | float (bits : UInt64)
  | bool (b : Bool)
  | str (s : Bytes)
  | any (d : Option (Ty × Cell))
  | slice (h : Option Hdr)
  | array (l : List Cell)
  | map (id : Option Nat)
  | other (id : Nat)

/-- An `interface{}` value: nil, or a dynamic type with contents. -/
abbrev Dyn := Option (Ty × Cell)

/-- The memory: backing arrays (a variable of its own is one of length 1) and hash tables. -/
structure Heap where
  arrays : Nat → List Cell
  maps : Nat → Cell → Option Cell

/-- An address: element `idx` of a backing array, and in it the element of an array of arrays … -/
structure Place where
  arr : Nat
  idx : Nat
  path : List Nat
  deriving DecidableEq, Repr

/-- `reflect.Value`: the zero `Value`, an addressable variable, or a value that is not addressable. -/
inductive RV where
  | invalid
  | ref (ty : Ty) (p : Place)
  | copy (ty : Ty) (c : Cell)

/-- A panic inside package `reflect`, or of a map access. -/
def reflectPanic : Panic := .user "reflect"

/-- The part of a variable at a path. -/
def Cell.at : Cell → List Nat → Option Cell
  | c, [] => some c
  | .array l, i :: p => match l[i]? with
    | some c => c.at p
    | none => none
  | _, _ :: _ => none

/-- Overwrite the part of a variable at a path. -/
def Cell.put : Cell → List Nat → Cell → Option Cell
  | _, [], v => some v
  | .array l, i :: p, v => match l[i]? with
    | some c => (c.put p v).map fun c' => .array (l.set i c')
    | none => none
  | _, _ :: _, _ => none

/-- Read a variable. A place that does not exist cannot come up in Go; here it is a panic. -/
def load (h : Heap) (p : Place) : Out Cell :=
  match (h.arrays p.arr)[p.idx]? with
  | some c => match c.at p.path with
    | some c => .ok c
    | none => .panic .index
  | none => .panic .index

/-- Write a variable. -/
def store (h : Heap) (p : Place) (v : Cell) : Out Heap :=
  match (h.arrays p.arr)[p.idx]? with
  | some c => match c.put p.path v with
    | some c' => .ok { h with arrays := fun a => if a = p.arr then (h.arrays a).set p.idx c' else h.arrays a }
    | none => .panic .index
  | none => .panic .index

/-- The contents of a `reflect.Value`. -/
def contents (h : Heap) : RV → Out (Ty × Cell)
  | .invalid => .panic reflectPanic
  | .ref ty p => do return (ty, ← load h p)
  | .copy ty c => .ok (ty, c)

/-- What the methods of a box return: `descr` is what `reflect.Value.String` returns for a value that is not a string,
`"<T Value>"` with the type or `"<invalid Value>"`. -/
inductive Res where
  | any (d : Dyn)
  | int (i : Int64)
  | uint (u : UInt64)
  | float (bits : UInt64)
  | bool (b : Bool)
  | str (s : Bytes)
  | descr (ty : Option Ty)
  | bytes (h : Option Hdr)
  | unit
  | box (r : RV)

/-- The methods of `Box`. -/
inductive Method where
  | getAny | getInt | getUint | getFloat | getBool | getString | getBytes
  | setAny (d : Dyn)
  | setInt (v : Int64)
  | setUint (v : UInt64)
  | setFloat (bits : UInt64)
  | setBool (v : Bool)
  | setString (v : Bytes)
  | setBytes (v : Option Hdr)
  | index (i : Int)
  | mapIndex (k : Bytes)
  | complexMapIndex (k : Dyn)

/-- The getters on known contents: `Interface`, `Int`, `Uint`, `Float`, `Bool`, `String`, `Bytes` of `reflect.Value`
(box.go:56-87). The methods panic for other kinds, except `String`. -/
def getValue : Method → Ty × Cell → Out Res
  | .getAny, (.any, .any d) => .ok (.any d)
  | .getAny, (ty, c) => .ok (.any (some (ty, c)))
  | .getInt, (.int _, .int i) => .ok (.int (.ofInt i))
  | .getUint, (.uint _, .uint n) => .ok (.uint (.ofNat n))
  | .getFloat, (.float _, .float b) => .ok (.float b)
  | .getBool, (.bool, .bool b) => .ok (.bool b)
  | .getString, (.string, .str s) => .ok (.str s)
  | .getString, (ty, _) => .ok (.descr (some ty))
  | .getBytes, (.slice (.uint 8), .slice s) => .ok (.bytes s)
  | _, _ => .panic reflectPanic

/-- What a setter writes into a variable of type `ty` (box.go:95-127): `SetInt`, `SetUint` keep the low bits, `SetFloat`
rounds to `float32` (`narrow`); `Set` checks that the dynamic type can be assigned. `none`: panic. `reflect.ValueOf(nil)`
is the zero `Value`, which `Set` does not accept. -/
def setValue (narrow : UInt64 → UInt64) (ty : Ty) : Method → Option Cell
  | .setAny none => none
  | .setAny (some (ty', c)) => if ty = .any then some (.any (some (ty', c))) else if ty = ty' then some c else none
  | .setInt v => match ty with
    | .int bits => some (.int (v.toInt.bmod (2 ^ bits)))
    | _ => none
  | .setUint v => match ty with
    | .uint bits => some (.uint (v.toNat % 2 ^ bits))
    | _ => none
  | .setFloat v => match ty with
    | .float bits => some (.float (if bits = 32 then narrow v else v))
    | _ => none
  | .setBool v => match ty with
    | .bool => some (.bool v)
    | _ => none
  | .setString v => match ty with
    | .string => some (.str v)
    | _ => none
  | .setBytes v => match ty with
    | .slice (.uint 8) => some (.slice v)
    | _ => none
  | _ => none

/-- `reflect.Value.Index`: the element of a slice is addressable, that of an array if the array is, that of a string
never is. -/
def indexValue (h : Heap) (r : RV) (i : Int) : Out RV := do
  let (ty, c) ← contents h r
  match ty, c with
  | .slice e, .slice (some s) =>
    if 0 ≤ i ∧ i < s.len then return .ref e ⟨s.arr, s.off + i.toNat, []⟩ else .panic reflectPanic
  | .array _ e, .array l =>
    match (if i < 0 then none else l[i.toNat]?) with
    | none => .panic reflectPanic
    | some c =>
      match r with
      | .ref _ p => return .ref e { p with path := p.path ++ [i.toNat] }
      | _ => return .copy e c
  | .string, .str s =>
    match (if i < 0 then none else s[i.toNat]?) with
    | none => .panic reflectPanic
    | some b => return .copy (.uint 8) (.uint b.toNat)
  | _, _ => .panic reflectPanic

/-- Slices and maps cannot be compared, nor arrays of them. -/
def Ty.comparable : Ty → Bool
  | .slice _ => false
  | .map _ _ => false
  | .array _ e => e.comparable
  | _ => true

mutual
/-- A key can be hashed unless there is an interface inside that holds a value of a type that cannot be compared. -/
def Cell.hashable : Cell → Bool
  | .slice _ => false
  | .map _ => false
  | .any none => true
  | .any (some (ty, c)) => ty.comparable && c.hashable
  | .array l => Cell.hashables l
  | _ => true
/-- All of the keys can be hashed. -/
def Cell.hashables : List Cell → Bool
  | [] => true
  | c :: cs => c.hashable && Cell.hashables cs
end

/-- `reflect.Value.MapIndex(reflect.ValueOf(k))`: the key must be assignable to the key type; the element is a copy; the
zero `Value` for a missing key, also in a nil map. -/
def mapIndexValue (h : Heap) (r : RV) (k : Dyn) : Out RV := do
  let (ty, c) ← contents h r
  match ty, c, k with
  | .map kt e, .map m, some (ty', c') =>
    if kt = .any ∨ kt = ty' then
      let key := if kt = .any then .any (some (ty', c')) else c'
      if key.hashable then
        match m.bind fun id => h.maps id key with
        | some v => return .copy e v
        | none => return .invalid
      else .panic reflectPanic
    else .panic reflectPanic
  | _, _, _ => .panic reflectPanic

/-- One method call on `ReflectionBox{Val: r}`: box.go:55-147. -/
def call (narrow : UInt64 → UInt64) (h : Heap) (r : RV) (m : Method) : Out (Heap × Res) :=
  match m with
  | .getString =>
    match r with
    | .invalid => .ok (h, .descr none)
    | r => do return (h, ← getValue .getString (← contents h r))
  | .getAny => do return (h, ← getValue m (← contents h r))
  | .getInt => do return (h, ← getValue m (← contents h r))
  | .getUint => do return (h, ← getValue m (← contents h r))
  | .getFloat => do return (h, ← getValue m (← contents h r))
  | .getBool => do return (h, ← getValue m (← contents h r))
  | .getBytes => do return (h, ← getValue m (← contents h r))
  | .index i => do return (h, .box (← indexValue h r i))
  | .mapIndex k => do return (h, .box (← mapIndexValue h r (some (.string, .str k))))
  | .complexMapIndex k => do return (h, .box (← mapIndexValue h r k))
  | m =>
    match r with
    | .ref ty p =>
      match setValue narrow ty m with
      | some c => do return (← store h p c, .unit)
      | none => .panic reflectPanic
    | _ => .panic reflectPanic

/-- A history of calls on boxes; a call that panics (and whose panic is recovered) leaves everything as it was. -/
def history (narrow : UInt64 → UInt64) : Heap → List (RV × Method) → Heap
  | h, [] => h
  | h, (r, m) :: os =>
    match call narrow h r m with
    | .ok (h', _) => history narrow h' os
    | _ => history narrow h os

end Takenoco.Refl
