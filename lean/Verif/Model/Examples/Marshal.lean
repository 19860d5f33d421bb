import Verif.Model.Examples.Csv
/-
Layer A model of `Marshal` and `Unmarshal` in /repo/_examples/csv/marshal.go, with the part of package `reflect`
they use. A struct type is the list of its fields; a struct is the list of its field values.

Go iterates over a map in an unspecified order, which may differ from one `range` to the next: the order is a
parameter of the model (a function that rearranges the entries, for each row), and so are `strconv.FormatFloat`,
`strconv.ParseFloat` and the conversion to `float32`. Simplification: field names are distinct (Go allows several
fields named `_`); integers of the platform-dependent kinds `int`, `uint` have 64 bits.
-/
namespace Takenoco.Csv

/-- The kinds that marshal.go:101-110 and 193-214 distinguish. -/
inductive Kind where
  | string
  | int (bits : Nat)
  | uint (bits : Nat)
  | float (bits : Nat)
  | other
  deriving DecidableEq, Repr

/-- `reflect.StructField`: name, value of the key `csv` in the tag (empty if there is none), kind, and whether the
field is exported. -/
structure Field where
  name : Bytes
  tag : Bytes
  kind : Kind
  exported : Bool
  deriving DecidableEq, Repr

/-- The value of a field. Floats are the bit patterns of `float64`. -/
inductive FieldVal where
  | str (s : Bytes)
  | int (i : Int)
  | uint (n : Nat)
  | float (bits : UInt64)
  | other (id : Nat)
  deriving DecidableEq, Repr

/-- Floating point numbers: `FormatFloat(x, 'g', -1, 64)`, `ParseFloat(s, 64)`, conversion to `float32` and back. -/
structure Floats where
  format : UInt64 → Bytes
  parse : Bytes → NumRes UInt64
  narrow : UInt64 → UInt64

/-- `columns[k]` after `columns[cols[i]] = i` for all `i` (marshal.go:65-68, 159-162): the last index, if any. -/
def lastIndex (k : Bytes) : List Bytes → Nat → Option Nat
  | [], _ => none
  | c :: cs, i => (lastIndex k cs (i + 1)).or (if c = k then some i else none)

/-- `strconv.FormatUint(n, 10)` -/
def formatUint (n : Nat) : Bytes := (Nat.toDigits 10 n).map fun ch => ch.toNat.toUInt8

/-- `strconv.FormatInt(i, 10)` -/
def formatInt (i : Int) : Bytes := if i < 0 then 0x2d :: formatUint i.natAbs else formatUint i.natAbs

/-- The `switch` of `Marshal`: marshal.go:101-110. `none`: no case applies. The value has the kind of the field; `reflect`
panics otherwise (except for `String`). -/
def fieldText (fl : Floats) : Kind → FieldVal → Out (Option Bytes)
  | .string, .str s => .ok (some s)
  | .int _, .int i => .ok (some (formatInt i))
  | .uint _, .uint n => .ok (some (formatUint n))
  | .float _, .float b => .ok (some (fl.format b))
  | .other, _ => .ok none
  | _, _ => .panic (.user "reflect: call of method on Value of another kind")

/-- `csvColName`: marshal.go:79-82. -/
def csvColName (f : Field) : Bytes := if f.tag = [] then f.name else f.tag

/-- `rvi.FieldByName(k)` -/
def fieldByName (fields : List Field) (vals : List FieldVal) (k : Bytes) : Option FieldVal :=
  ((fields.zip vals).find? fun p => p.1.name == k).map (·.2)

/-- One iteration of the loop over `mapping`: marshal.go:98-111. A missing column has the index 0. -/
def marshalField (fl : Floats) (cols : List Bytes) (fields : List Field) (vals : List FieldVal) (f : Field) (buf : List Bytes) :
    Out (List Bytes) :=
  match fieldByName fields vals f.name with
  | none => .panic (.user "reflect: call of method on zero Value")
  | some v => do
    match ← fieldText fl f.kind v with
    | none => return buf
    | some t =>
      let index := (lastIndex (csvColName f) cols 0).getD 0
      if index < buf.length then return buf.set index t else .panic .index

/-- The loop over `mapping`, for the entries in the given order: marshal.go:98-111. -/
def marshalFields (fl : Floats) (cols : List Bytes) (fields : List Field) (vals : List FieldVal) :
    List Field → List Bytes → Out (List Bytes)
  | [], buf => .ok buf
  | f :: fs, buf => do marshalFields fl cols fields vals fs (← marshalField fl cols fields vals f buf)

/-- The loop over the data: marshal.go:92-116, giving the rows that are written. The number is that of the row. -/
def marshalRows (fl : Floats) (order : Nat → List Field → List Field) (cols : List Bytes) (fields : List Field) :
    Nat → List (List FieldVal) → Out (List (List Bytes))
  | _, [] => .ok []
  | i, vals :: rest => do
    let row ← marshalFields fl cols fields vals (order i fields) (List.replicate cols.length [])
    return row :: (← marshalRows fl order cols fields (i + 1) rest)

/-- The argument of `Marshal`, as far as it is looked at. -/
inductive Data where
  /-- no slice -/
  | notSlice
  /-- a slice of something else than structs -/
  | notStructs
  | structs (fields : List Field) (rows : List (List FieldVal))

/-- `Marshal`: marshal.go:46-119. The rows are separated by line feeds as in `ToCsv`. -/
def marshal (fl : Floats) (order : Nat → List Field → List Field) (cols : List Bytes) : Data → Out (Except Err Bytes)
  | .notSlice => .ok (.error (.msg "Data should be slice of struct"))
  | .notStructs => .ok (.error (.msg "Data should be slice of struct"))
  | .structs fields rows => do return .ok (toCsv (← marshalRows fl order cols fields 0 rows))

/-! ### Unmarshal -/

/-- The zero value of a kind. -/
def zeroVal : Kind → FieldVal
  | .string => .str []
  | .int _ => .int 0
  | .uint _ => .uint 0
  | .float _ => .float 0
  | .other => .other 0

/-- `m[k] = f` for a map given as the list of its entries. -/
def putEntry (k : Bytes) (f : Field) : List (Bytes × Field) → List (Bytes × Field)
  | [] => [(k, f)]
  | e :: es => if e.1 = k then (k, f) :: es else e :: putEntry k f es

/-- The maps `mapping` and `colTypes`: marshal.go:171-183. -/
def mappingOf (header : List Bytes) : List Field → List (Bytes × Field) → List (Bytes × Field)
  | [], m => m
  | f :: fs, m =>
    if f.tag ∈ header then mappingOf header fs (putEntry f.tag f m)
    else if f.name ∈ header then mappingOf header fs (putEntry f.name f m)
    else mappingOf header fs m

/-- Why `Unmarshal` returns an error. -/
inductive UnmarshalErr where
  /-- wrong out parameter -/
  | target
  /-- the error of `Parse` -/
  | parse (e : Option Err) (at_ : LineAndCol)
  /-- the error of `strconv` -/
  | number (input : Bytes) (why : NumErr)

/-- `SetString`, `SetInt`, `SetUint`, `SetFloat` panic for fields that are not exported. -/
def setVal (f : Field) (v : FieldVal) : Out (Except UnmarshalErr FieldVal) :=
  if f.exported then .ok (.ok v) else .panic (.user "reflect: using value obtained using unexported field")

/-- The `switch` of `Unmarshal`: marshal.go:193-214. `SetInt`, `SetUint` keep the low bits. -/
def fieldSet (fl : Floats) (f : Field) (w : Bytes) (old : FieldVal) : Out (Except UnmarshalErr FieldVal) :=
  match f.kind with
  | .string => setVal f (.str w)
  | .int bits =>
    match parseInt w 10 with
    | .error e => .ok (.error (.number w e))
    | .ok z => setVal f (.int (z.bmod (2 ^ bits)))
  | .uint bits =>
    match parseUint w 10 with
    | .error e => .ok (.error (.number w e))
    | .ok z => setVal f (.uint (z % 2 ^ bits))
  | .float bits =>
    match fl.parse w with
    | .error e => .ok (.error (.number w e))
    | .ok z => setVal f (.float (if bits = 32 then fl.narrow z else z))
  | .other => .ok (.ok old)

/-- Assign to the field with the name `k`. -/
def setByName (k : Bytes) (v : FieldVal) : List Field → List FieldVal → List FieldVal
  | f :: fs, x :: xs => if f.name == k then v :: xs else x :: setByName k v fs xs
  | _, xs => xs

/-- The loop over `mapping` for one row, in the given order: marshal.go:190-215. -/
def unmarshalFields (fl : Floats) (header : List Bytes) (fields : List Field) (row : List Bytes) :
    List (Bytes × Field) → List FieldVal → Out (Except UnmarshalErr (List FieldVal))
  | [], vals => .ok (.ok vals)
  | (k, f) :: es, vals =>
    match row[(lastIndex k header 0).getD 0]? with
    | none => .panic .index
    | some w =>
      match fieldByName fields vals f.name with
      | none => .panic (.user "reflect: call of method on zero Value")
      | some old => do
        match ← fieldSet fl f w old with
        | .error e => return .error e
        | .ok v => unmarshalFields fl header fields row es (setByName f.name v fields vals)

/-- The loop over the rows: marshal.go:188-216. -/
def unmarshalRows (fl : Floats) (order : Nat → List (Bytes × Field) → List (Bytes × Field)) (header : List Bytes) (fields : List Field) :
    Nat → List (List Bytes) → Out (Except UnmarshalErr (List (List FieldVal)))
  | _, [] => .ok (.ok [])
  | i, row :: rest => do
    match ← unmarshalFields fl header fields row (order i (mappingOf header fields [])) (fields.map fun f => zeroVal f.kind) with
    | .error e => return .error e
    | .ok vals =>
      match ← unmarshalRows fl order header fields (i + 1) rest with
      | .error e => return .error e
      | .ok vs => return .ok (vals :: vs)

/-- The out parameter of `Unmarshal`, as far as it is looked at. -/
inductive Target where
  /-- no pointer to a slice of structs -/
  | wrong
  | structs (fields : List Field)

/-- What `Unmarshal` does to the slice behind the pointer. -/
inductive Unmarshalled where
  | failed (e : UnmarshalErr)
  /-- no error, and the slice is as before -/
  | unchanged
  | assigned (rows : List (List FieldVal))

/-- `Unmarshal`: marshal.go:122-222. -/
def unmarshal (fl : Floats) (order : Nat → List (Bytes × Field) → List (Bytes × Field)) (fuel : Nat) (t : Target) (s : Bytes) :
    Out Unmarshalled :=
  match t with
  | .wrong => .ok (.failed .target)
  | .structs fields => do
    match ← parse fuel s with
    | .failed e at_ => return .failed (.parse e at_)
    | .value [] => return .unchanged
    | .value [_] => return .unchanged
    | .value (header :: rows) =>
      match ← unmarshalRows fl order header fields 0 rows with
      | .error e => return .failed e
      | .ok vs => return .assigned vs

end Takenoco.Csv
