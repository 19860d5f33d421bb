import Verif.Model.ReflectBox
/-
Specification vocabulary for boxes over Go variables.
-/
namespace Takenoco
namespace Spec
open Refl

/-- What the variables of a program are declared to be: element type and length of every backing array, and key and element type of
every hash table. -/
structure Decls where
  elem : Nat → Ty
  len : Nat → Nat
  key : Nat → Ty
  val : Nat → Ty

/-- A value of a type. -/
inductive Typed (D : Decls) : Ty → Cell → Prop where
  | int {bits : Nat} {i : Int} : -2 ^ (bits - 1) ≤ i → i < 2 ^ (bits - 1) → Typed D (.int bits) (.int i)
  | uint {bits n : Nat} : n < 2 ^ bits → Typed D (.uint bits) (.uint n)
  | float {bits : Nat} {b : UInt64} : Typed D (.float bits) (.float b)
  | bool {b : Bool} : Typed D .bool (.bool b)
  | str {s : Bytes} : Typed D .string (.str s)
  | nil : Typed D .any (.any none)
  | any {ty : Ty} {c : Cell} : ty ≠ .any → Typed D ty c → Typed D .any (.any (some (ty, c)))
  | nilSlice {e : Ty} : Typed D (.slice e) (.slice none)
  | slice {s : Hdr} : s.off + s.len ≤ D.len s.arr → Typed D (.slice (D.elem s.arr)) (.slice (some s))
  | array {e : Ty} {l : List Cell} : (∀ c ∈ l, Typed D e c) → Typed D (.array l.length e) (.array l)
  | nilMap {k e : Ty} : Typed D (.map k e) (.map none)
  | map {id : Nat} : Typed D (.map (D.key id) (D.val id)) (.map (some id))
  | other {id n : Nat} : Typed D (.other id) (.other n)

/-- An `interface{}` value: nil, or a value of a type other than `interface{}`. -/
def TypedDyn (D : Decls) (d : Dyn) : Prop := Typed D .any (.any d)

/-- The memory holds what is declared. -/
structure TypedHeap (D : Decls) (h : Heap) : Prop where
  length : ∀ a, (h.arrays a).length = D.len a
  arrays : ∀ a, ∀ c ∈ h.arrays a, Typed D (D.elem a) c
  maps : ∀ id k v, h.maps id k = some v → Typed D (D.val id) v

/-- The type of the part of a variable at a path. -/
inductive PartOf : Ty → List Nat → Ty → Prop where
  | whole {ty : Ty} : PartOf ty [] ty
  | elem {n i : Nat} {e ty : Ty} {p : List Nat} : i < n → PartOf e p ty → PartOf (.array n e) (i :: p) ty

/-- A box on something that exists. -/
inductive TypedBox (D : Decls) : RV → Prop where
  | invalid : TypedBox D .invalid
  | ref {ty : Ty} {p : Place} : p.idx < D.len p.arr → PartOf (D.elem p.arr) p.path ty → TypedBox D (.ref ty p)
  | copy {ty : Ty} {c : Cell} : Typed D ty c → TypedBox D (.copy ty c)

/-- The argument of a method is a value of its Go type. -/
def TypedArg (D : Decls) : Method → Prop
  | .setAny d => TypedDyn D d
  | .setBytes s => Typed D (.slice (.uint 8)) (.slice s)
  | .complexMapIndex k => TypedDyn D k
  | _ => True

/-- A result is a value of its Go type. -/
def TypedRes (D : Decls) : Res → Prop
  | .any d => TypedDyn D d
  | .bytes s => Typed D (.slice (.uint 8)) (.slice s)
  | .box r => TypedBox D r
  | _ => True

/-- The static type of what the box holds. -/
def boxType : RV → Option Ty
  | .invalid => none
  | .ref ty _ => some ty
  | .copy ty _ => some ty

/-- The dynamic type of the argument of `SetAny` fits the variable. -/
def FitsVar (ty : Ty) (d : Dyn) : Prop := ∃ ty' c, d = some (ty', c) ∧ (ty = .any ∨ ty = ty')

/-- When a getter or setter does not panic: the getters need a value of the right kind, the setters a variable of the right
kind. -/
def Allowed (r : RV) : Method → Prop
  | .getAny => r ≠ .invalid
  | .getInt => ∃ bits, boxType r = some (.int bits)
  | .getUint => ∃ bits, boxType r = some (.uint bits)
  | .getFloat => ∃ bits, boxType r = some (.float bits)
  | .getBool => boxType r = some .bool
  | .getString => True
  | .getBytes => boxType r = some (.slice (.uint 8))
  | .setAny d => ∃ ty p, r = .ref ty p ∧ FitsVar ty d
  | .setInt _ => ∃ bits p, r = .ref (.int bits) p
  | .setUint _ => ∃ bits p, r = .ref (.uint bits) p
  | .setFloat _ => ∃ bits p, r = .ref (.float bits) p
  | .setBool _ => ∃ p, r = .ref .bool p
  | .setString _ => ∃ p, r = .ref .string p
  | .setBytes _ => ∃ p, r = .ref (.slice (.uint 8)) p
  | _ => False

/-- Neither `Index` nor `MapIndex` nor `ComplexMapIndex`. -/
def GetOrSet : Method → Prop
  | .index _ => False
  | .mapIndex _ => False
  | .complexMapIndex _ => False
  | _ => True

/-- The setters. -/
def IsSetter : Method → Prop
  | .setAny _ => True
  | .setInt _ => True
  | .setUint _ => True
  | .setFloat _ => True
  | .setBool _ => True
  | .setString _ => True
  | .setBytes _ => True
  | _ => False

/-- One of the variables is part of the other. -/
def Overlap (p q : Place) : Prop := p.arr = q.arr ∧ p.idx = q.idx ∧ (p.path <+: q.path ∨ q.path <+: p.path)

/-- The call is a write that overlaps with the variable. -/
def Touches (o : RV × Method) (q : Place) : Prop := ∃ ty p, o.1 = .ref ty p ∧ IsSetter o.2 ∧ Overlap p q

/-- What a getter returns after a setter, both on a variable of type `ty`: integers keep the low bits, and a `float32` is rounded. -/
inductive ReadsBack (narrow : UInt64 → UInt64) : Ty → Method → Method → Res → Prop where
  | int {bits : Nat} {v : Int64} : ReadsBack narrow (.int bits) (.setInt v) .getInt (.int (.ofInt (v.toInt.bmod (2 ^ bits))))
  | uint {bits : Nat} {v : UInt64} : ReadsBack narrow (.uint bits) (.setUint v) .getUint (.uint (.ofNat (v.toNat % 2 ^ bits)))
  | float64 {v : UInt64} : ReadsBack narrow (.float 64) (.setFloat v) .getFloat (.float v)
  | float32 {v : UInt64} : ReadsBack narrow (.float 32) (.setFloat v) .getFloat (.float (narrow v))
  | bool {v : Bool} : ReadsBack narrow .bool (.setBool v) .getBool (.bool v)
  | string {v : Bytes} : ReadsBack narrow .string (.setString v) .getString (.str v)
  | bytes {v : Option Hdr} : ReadsBack narrow (.slice (.uint 8)) (.setBytes v) .getBytes (.bytes v)
  | same {ty : Ty} {c : Cell} : ty ≠ .any → ReadsBack narrow ty (.setAny (some (ty, c))) .getAny (.any (some (ty, c)))
  | any {ty : Ty} {c : Cell} : ReadsBack narrow .any (.setAny (some (ty, c))) .getAny (.any (some (ty, c)))

/-- Types whose values cannot be compared. -/
inductive Uncomparable : Ty → Prop where
  | slice {e : Ty} : Uncomparable (.slice e)
  | map {k e : Ty} : Uncomparable (.map k e)
  | array {n : Nat} {e : Ty} : Uncomparable e → Uncomparable (.array n e)

/-- Somewhere inside is an `interface{}` that holds a value of such a type. -/
inductive HoldsUncomparable : Cell → Prop where
  | here {ty : Ty} {c : Cell} : Uncomparable ty → HoldsUncomparable (.any (some (ty, c)))
  | deeper {ty : Ty} {c : Cell} : HoldsUncomparable c → HoldsUncomparable (.any (some (ty, c)))
  | element {c : Cell} {l : List Cell} : c ∈ l → HoldsUncomparable c → HoldsUncomparable (.array l)

/-- The key of a map with the key type `kt` that an `interface{}` value stands for. -/
inductive MapKeyOf (kt : Ty) : Dyn → Cell → Prop where
  | any {ty : Ty} {c : Cell} : kt = .any → MapKeyOf kt (some (ty, c)) (.any (some (ty, c)))
  | same {ty : Ty} {c : Cell} : kt ≠ .any → kt = ty → MapKeyOf kt (some (ty, c)) c

end Spec
end Takenoco
