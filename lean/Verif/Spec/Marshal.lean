import Verif.Model.Examples.Marshal
import Verif.Spec.Csv
import Verif.Spec.Numeral
/-
How structs and the rows of a csv table correspond. Of the model only the types of fields and their values are used.
-/
namespace Takenoco.Spec
open Csv (Kind Field FieldVal Floats)

/-- The values of a kind. -/
inductive HasKind : Kind → FieldVal → Prop where
  | string {s : Bytes} : HasKind .string (.str s)
  | int {bits : Nat} {i : Int} : -2 ^ (bits - 1) ≤ i → i < 2 ^ (bits - 1) → HasKind (.int bits) (.int i)
  | uint {bits n : Nat} : n < 2 ^ bits → HasKind (.uint bits) (.uint n)
  | float {bits : Nat} {b : UInt64} : HasKind (.float bits) (.float b)
  | other {id : Nat} : HasKind .other (.other id)

/-- The two lists have the same length, and the elements correspond. -/
inductive Pointwise {α β : Type} (R : α → β → Prop) : List α → List β → Prop where
  | nil : Pointwise R [] []
  | cons {a : α} {b : β} {as : List α} {bs : List β} : R a b → Pointwise R as bs → Pointwise R (a :: as) (b :: bs)

/-- A struct of the type. -/
def IsStruct (fields : List Field) (vals : List FieldVal) : Prop := Pointwise (fun f v => HasKind f.kind v) fields vals

/-- The name of a field's column when writing: its tag, if it has one, or else its name. -/
def ColumnOf (f : Field) (k : Bytes) : Prop := (f.tag ≠ [] ∧ k = f.tag) ∨ (f.tag = [] ∧ k = f.name)

/-- The name of a field's column when reading: its tag, if the header has it, or else its name, if the header has it. -/
def KeyOf (header : List Bytes) (f : Field) (k : Bytes) : Prop :=
  (f.tag ∈ header ∧ k = f.tag) ∨ (f.tag ∉ header ∧ f.name ∈ header ∧ k = f.name)

/-- The last column with the name is column `j`. -/
def ColumnAt (cols : List Bytes) (k : Bytes) (j : Nat) : Prop := cols[j]? = some k ∧ ∀ i, j < i → cols[i]? ≠ some k

/-- The text of a field in a table: numbers in decimal, floats as `strconv` formats them. -/
inductive Shows (fl : Floats) : FieldVal → Bytes → Prop where
  | string {s : Bytes} : Shows fl (.str s) s
  | int {i : Int} : Shows fl (.int i) (utf8s (toString i).toList)
  | uint {n : Nat} : Shows fl (.uint n) (utf8s (toString n).toList)
  | float {b : UInt64} : Shows fl (.float b) (fl.format b)

/-- The field can be written: it is a string or a number. -/
def Writable (f : Field) : Prop := f.kind ≠ .other

/-- The field number `m` of the struct is written to column `j` as `t`. -/
def Fills (fl : Floats) (cols : List Bytes) (fields : List Field) (vals : List FieldVal) (m j : Nat) (t : Bytes) : Prop :=
  ∃ f v k, fields[m]? = some f ∧ vals[m]? = some v ∧ Writable f ∧ ColumnOf f k ∧ ColumnAt cols k j ∧ Shows fl v t

/-- The row of a table for a struct: in each column the text of a field that belongs there; empty if there is none. -/
def RowOf (fl : Floats) (cols : List Bytes) (fields : List Field) (vals : List FieldVal) (row : List Bytes) : Prop :=
  row.length = cols.length ∧ ∀ j t, row[j]? = some t →
    (∃ m, Fills fl cols fields vals m j t) ∨ ((∀ m t, ¬ Fills fl cols fields vals m j t) ∧ t = [])

/-- Different fields with different names, and the fields that can be written have different columns, all of them present. -/
structure Assignable (cols : List Bytes) (fields : List Field) : Prop where
  names : (fields.map (·.name)).Nodup
  columns : ∀ f k, f ∈ fields → Writable f → ColumnOf f k → k ∈ cols
  apart : ∀ (m m' : Nat) f f' k, fields[m]? = some f → fields[m']? = some f' → Writable f → Writable f' → ColumnOf f k → ColumnOf f' k → m = m'

/-- What a cell says, as a value of the kind. Integers have at most 64 bits; of the bits that are too many the lower ones count. -/
inductive CellReads (fl : Floats) : Kind → Bytes → FieldVal → Prop where
  | string {w : Bytes} : CellReads fl .string w (.str w)
  | int {bits : Nat} {w : Bytes} {z i : Int} : SignedNumeral 10 w z → -2 ^ 63 ≤ z → z < 2 ^ 63 →
      (2 : Int) ^ bits ∣ z - i → -2 ^ (bits - 1) ≤ i → i < 2 ^ (bits - 1) → CellReads fl (.int bits) w (.int i)
  | uint {bits : Nat} {w : Bytes} {z n : Nat} : Numeral 10 w z → z < 2 ^ 64 → z % 2 ^ bits = n % 2 ^ bits → n < 2 ^ bits →
      CellReads fl (.uint bits) w (.uint n)
  | float {bits : Nat} {w : Bytes} {b : UInt64} : bits ≠ 32 → fl.parse w = .ok b → CellReads fl (.float bits) w (.float b)
  | float32 {w : Bytes} {b : UInt64} : fl.parse w = .ok b → CellReads fl (.float 32) w (.float (fl.narrow b))

/-- The zero value of a kind. -/
inductive IsZero : Kind → FieldVal → Prop where
  | string : IsZero .string (.str [])
  | int {bits : Nat} : IsZero (.int bits) (.int 0)
  | uint {bits : Nat} : IsZero (.uint bits) (.uint 0)
  | float {bits : Nat} : IsZero (.float bits) (.float 0)
  | other : IsZero .other (.other 0)

/-- The field number `m` gets its value from the column `j`: the last column with its name, unless a later field has the
same name there. -/
def Source (header : List Bytes) (fields : List Field) (m j : Nat) : Prop :=
  ∃ f k, fields[m]? = some f ∧ KeyOf header f k ∧ ColumnAt header k j ∧
    ∀ m' f', m < m' → fields[m']? = some f' → ¬ KeyOf header f' k

/-- The struct read from a row: writable fields with a column have the value that the cell says, all others are zero. -/
def StructOf (fl : Floats) (header : List Bytes) (fields : List Field) (row : List Bytes) (vals : List FieldVal) : Prop :=
  vals.length = fields.length ∧ ∀ m f v, fields[m]? = some f → vals[m]? = some v →
    ((∀ j, ¬ Source header fields m j) ∨ ¬ Writable f → IsZero f.kind v) ∧
    ∀ j, Source header fields m j → ∃ w, row[j]? = some w ∧ (Writable f → CellReads fl f.kind w v)

/-- All fields that are to be assigned can be assigned by reflection. -/
def Settable (header : List Bytes) (fields : List Field) : Prop :=
  ∀ m f j, fields[m]? = some f → Writable f → Source header fields m j → f.exported = true

/-- A cell from which a field is to be read does not say a value of its kind. -/
def Unreadable (fl : Floats) (header : List Bytes) (fields : List Field) (row : List Bytes) (w : Bytes) : Prop :=
  ∃ (m j : Nat) (f : Field), fields[m]? = some f ∧ Source header fields m j ∧ Writable f ∧ row[j]? = some w ∧ ∀ v, ¬ CellReads fl f.kind w v

/-- The value survives writing and reading: a string that survives as a cell, any integer, a float that its text denotes. -/
inductive Kept (fl : Floats) : Kind → FieldVal → Prop where
  | string {t : List Char} : Survives t → Kept fl .string (.str (utf8s t))
  | int {bits : Nat} {i : Int} : Kept fl (.int bits) (.int i)
  | uint {bits n : Nat} : Kept fl (.uint bits) (.uint n)
  | float {bits : Nat} {b : UInt64} {t : List Char} : fl.format b = utf8s t → Survives t →
      CellReads fl (.float bits) (fl.format b) (.float b) → Kept fl (.float bits) (.float b)

/-- All sorts of integers have 1 to 64 bits. -/
def GoKind : Kind → Prop
  | .int bits => 1 ≤ bits ∧ bits ≤ 64
  | .uint bits => bits ≤ 64
  | _ => True

end Takenoco.Spec
