import Verif.Model.Gram
/-
Layer A model of /repo/extra/transformers.go and of the part of Go's package `time` it uses:
`time.Parse` for the two layouts that occur there (the layout is given as the list of its chunks), `time.Date` in
UTC, and `Time.UTC`. `time` is not part of /repo; its behaviour is modelled from the Go source (format.go,
time.go). Where Go versions differ (the offset hours and minutes of a zone: any `atoi` up to Go 1.19, two digits
with a range check since Go 1.20), the version is the parameter `strict`.
-/
namespace Takenoco.Time

/-- The layout chunks that occur in the two layouts. -/
inductive Chunk where
  /-- literal text -/
  | lit (s : Bytes)
  /-- `2006` -/
  | year
  /-- `01` -/
  | month
  /-- `02` -/
  | day
  /-- `15` -/
  | hour
  /-- `04` -/
  | minute
  /-- `05` -/
  | second
  /-- `.000000000` -/
  | nanos
  /-- `-07:00` -/
  | zone

/-- `"2006-01-02"`: transformers.go:12. -/
def dateLayout : List Chunk := [.year, .lit (b! "-"), .month, .lit (b! "-"), .day]

/-- `"2006-01-02T15:04:05.000000000-07:00"`: transformers.go:26,39. -/
def dateTimeLayout : List Chunk :=
  dateLayout ++ [.lit (b! "T"), .hour, .lit (b! ":"), .minute, .lit (b! ":"), .second, .nanos, .zone]

/-- What has been read so far. -/
structure Fields where
  year : Int := 0
  month : Int := 1
  day : Int := 1
  hour : Int := 0
  min : Int := 0
  sec : Int := 0
  nsec : Int := 0
  /-- `zoneOffset` in seconds (0 if the layout has no zone: the location is then UTC) -/
  zone : Int := 0
  deriving DecidableEq

/-- `isDigit` (format.go) of one byte -/
def digit (b : UInt8) : Bool := 0x30 ≤ b && b ≤ 0x39

/-- `int(b - '0')` -/
def digitVal (b : UInt8) : Int := ((b - 0x30).toNat : Int)

/-- `leadingInt` followed by the test that nothing is left. Simplification: no overflow check, since the strings
here have at most nine bytes. -/
def leadingInt : Bytes → Int → Option Int
  | [], x => some x
  | b :: s, x => if digit b then leadingInt s (x * 10 + digitVal b) else none

/-- `atoi` of package `time`: an optional sign, then digits (possibly none). -/
def atoi : Bytes → Option Int
  | [] => some 0
  | b :: s =>
    if b == 0x2d then (leadingInt s 0).map (- ·)
    else if b == 0x2b then leadingInt s 0
    else leadingInt (b :: s) 0

/-- `getnum`: one or two digits (two if `fixed`) and the rest. -/
def getnum (fixed : Bool) : Bytes → Option (Int × Bytes)
  | [] => none
  | [a] => if digit a && !fixed then some (digitVal a, []) else none
  | a :: b :: s =>
    if !digit a then none
    else if !digit b then (if fixed then none else some (digitVal a, b :: s))
    else some (digitVal a * 10 + digitVal b, s)

/-- `skip` for prefixes without blanks -/
def skip : Bytes → Bytes → Option Bytes
  | [], v => some v
  | p :: ps, b :: v => if b == p then skip ps v else none
  | _ :: _, [] => none

/-- Result of a number, if it is in range -/
def inRange (lo hi : Int) : Option (Int × Bytes) → Option (Int × Bytes)
  | some (n, v) => if lo ≤ n ∧ n ≤ hi then some (n, v) else none
  | none => none

/-- The case `stdNumColonTZ` of `parse`. -/
def readZone (strict : Bool) : Bytes → Option (Int × Bytes)
  | s :: h1 :: h2 :: c :: m1 :: m2 :: v =>
    if c != 0x3a then none else
    let num (x y : UInt8) (hi : Int) : Option Int :=
      if strict then
        if digit x && digit y then
          let n := digitVal x * 10 + digitVal y
          if n ≤ hi then some n else none
        else none
      else atoi [x, y]
    match num h1 h2 24, num m1 m2 60 with
    | some hr, some mm =>
      let z := (hr * 60 + mm) * 60
      if s == 0x2b then some (z, v) else if s == 0x2d then some (-z, v) else none
    | _, _ => none
  | _ => none

/-- One round of the loop of `parse`: read the value of a chunk; `none` is an error (a bad value or a value out of
range). -/
def readChunk (strict : Bool) (f : Fields) (v : Bytes) : Chunk → Option (Fields × Bytes)
  | .lit s => (skip s v).map fun v' => (f, v')
  | .year =>
    match v with
    | a :: b :: c :: d :: v' =>
      if digit a then (atoi [a, b, c, d]).map fun n => ({ f with year := n }, v') else none
    | _ => none
  | .month => (inRange 1 12 (getnum true v)).map fun (n, v') => ({ f with month := n }, v')
  | .day => (getnum true v).map fun (n, v') => ({ f with day := n }, v')
  | .hour => (inRange 0 23 (getnum false v)).map fun (n, v') => ({ f with hour := n }, v')
  | .minute => (inRange 0 59 (getnum true v)).map fun (n, v') => ({ f with min := n }, v')
  | .second => (inRange 0 59 (getnum true v)).map fun (n, v') => ({ f with sec := n }, v')
  | .nanos =>
    if v.length < 10 then none else
    match v with
    | p :: v' =>
      if p == 0x2e || p == 0x2c then
        match atoi (v'.take 9) with
        | some n => if 0 ≤ n then some ({ f with nsec := n }, v'.drop 9) else none
        | none => none
      else none
    | [] => none
  | .zone => (readZone strict v).map fun (z, v') => ({ f with zone := z }, v')

/-- The loop of `parse`: all chunks in order; text left over is an error. -/
def readChunks (strict : Bool) : List Chunk → Fields → Bytes → Option Fields
  | [], f, v => if v.isEmpty then some f else none
  | c :: cs, f, v =>
    match readChunk strict f v c with
    | some (f', v') => readChunks strict cs f' v'
    | none => none

/-- `isLeap` -/
def isLeap (y : Int) : Bool := y % 4 == 0 && (y % 100 != 0 || y % 400 == 0)

/-- `daysBefore` -/
def daysBefore : List Int := [0, 31, 59, 90, 120, 151, 181, 212, 243, 273, 304, 334, 365]

/-- `daysIn` for months 1 to 12 -/
def daysIn (m y : Int) : Int :=
  if m == 2 && isLeap y then 29 else daysBefore.getD m.toNat 0 - daysBefore.getD (m.toNat - 1) 0

/-- `absoluteZeroYear` -/
def absoluteZeroYear : Int := -292277022399

/-- `daysSinceEpoch`: days from the start of the absolute zero year to the start of the year, by cycles of 400, 100,
4 and 1 years. Simplification: unbounded integers (no overflow for years from 0 to 9999). -/
def daysSinceEpoch (year : Int) : Int :=
  let y := year - absoluteZeroYear
  let n := y / 400
  let y := y - 400 * n
  let d := 146097 * n
  let n := y / 100
  let y := y - 100 * n
  let d := d + 36524 * n
  let n := y / 4
  let y := y - 4 * n
  let d := d + 1461 * n
  d + 365 * y

/-- `absoluteToInternal + internalToUnix`, in seconds: `(absoluteZeroYear - 1) * 365.2425` days, then
`1969*365 + 1969/4 - 1969/100 + 1969/400` days. -/
def absoluteToUnix : Int :=
  ((absoluteZeroYear - 1) / 400 * 146097 - (1969 * 365 + 1969 / 4 - 1969 / 100 + 1969 / 400)) * 86400

/-- `Date(year, month, day, hour, min, sec, nsec, UTC)` as Unix seconds. Simplification: the normalisation of
arguments out of range, which cannot occur after the checks of `parse`, is left out. -/
def dateUnix (f : Fields) : Int :=
  let d := daysSinceEpoch f.year
  let d := d + daysBefore.getD (f.month.toNat - 1) 0
  let d := if isLeap f.year && decide (3 ≤ f.month) then d + 1 else d
  let d := d + (f.day - 1)
  let abs := d * 86400 + (f.hour * 3600 + f.min * 60 + f.sec)
  abs + absoluteToUnix

/-- `time.Parse(layout, value)` followed by `UTC()`: Unix seconds and nanoseconds, `none` is an error. -/
def parse (strict : Bool) (layout : List Chunk) (value : Bytes) : Option (Int × Nat) :=
  match readChunks strict layout {} value with
  | none => none
  | some f =>
    if f.day < 1 ∨ daysIn f.month f.year < f.day then none
    else some (dateUnix f - f.zone, f.nsec.toNat)

/-- `asts[len(asts)-1].Value.(string)` -/
def lastString (asts : List Ast) : Out Bytes :=
  match asts.getLast? with
  | none => .panic .index
  | some a => match a.val with | .str s => .ok s | _ => .panic .typeAssert

/-- The common end of the three transformers. -/
def timeAst (cls : String) (value : Bytes) : Option (Int × Nat) → Out (List Ast × Option Err)
  | none => .ok ([], some (.timeParse value))
  | some (u, n) => .ok ([{ opCode := 0, cls := cls, ty := .any, val := .time u n, pos := 0, len := 0 }], none)

/-- `ParseDate`: transformers.go:10-21. -/
def parseDate (strict : Bool) : TSem := fun _ asts => do
  let value ← lastString asts
  timeAst ":extra:Date" value (parse strict dateLayout value)

/-- `ParseDateTime`: transformers.go:23-35. -/
def parseDateTime (strict : Bool) : TSem := fun _ asts => do
  let value ← lastString asts
  timeAst ":extra:DateTime" value (parse strict dateTimeLayout value)

/-- `ParseTime`: transformers.go:37-48. -/
def parseTime (strict : Bool) : TSem := fun _ asts => do
  let s ← lastString asts
  let value := b! "1970-01-01T" ++ s ++ b! "+00:00"
  timeAst ":extra:Time" value (parse strict dateTimeLayout value)

/-! Known instants. -/
#guard parse false dateLayout (b! "1970-01-01") = some (0, 0)
#guard parse true dateTimeLayout (b! "2006-01-02T15:04:05.000000000-07:00") = some (1136239445, 0)
#guard parse true dateTimeLayout (b! "2020-02-29T23:59:59.123456789+09:30") = some (1582986599, 123456789)
#guard parse true dateLayout (b! "0000-01-01") = some (-62167219200, 0)
#guard parse true dateLayout (b! "0001-01-01") = some (-62135596800, 0)
#guard parse true dateLayout (b! "9999-12-31") = some (253402214400, 0)
#guard parse true dateLayout (b! "2021-02-29") = none

end Takenoco.Time
