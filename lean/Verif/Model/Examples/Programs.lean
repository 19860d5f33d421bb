import Verif.Model.Examples.Csv
import Verif.Model.Examples.Formula
/-
Model of the two programs: /repo/main.go and /repo/wasm/main.go.
-/
namespace Takenoco.Programs
open Formula (ParseRes)

/-- What a program leaves behind: what it wrote to standard output and the exit code. What it writes to the standard error output is
not modelled. -/
structure Run where
  stdout : Bytes
  exit : Int
  deriving DecidableEq

/-- `fmt.Println` of the elements of a slice, between brackets and with blanks between them (package fmt, `%v`). -/
def joined (sep : Bytes) : List Bytes → Bytes
  | [] => []
  | [x] => x
  | x :: xs => x ++ sep ++ joined sep xs

/-- `%v` of a `[]string`. -/
def showRow (row : List Bytes) : Bytes := b! "[" ++ joined (b! " ") row ++ b! "]"

/-- `%v` of a `[][]string`. -/
def showTable (rows : List (List Bytes)) : Bytes := b! "[" ++ joined (b! " ") (rows.map showRow) ++ b! "]"

/-- The literal in main.go:11. -/
def source : Bytes := b! "0,1,2,3,4,5,6,7,8,9\n0,1,2,3,4,5,6,7,8,9"

/-- `main`: main.go:10-22, for a literal `s`. The exit code is what `os.Exit` is called with. -/
def main (fuel : Nat) (s : Bytes) : Out Run := do
  match ← Csv.parse fuel s with
  | .failed _ _ => return ⟨[], -1⟩
  | .value x => return ⟨showTable x ++ b! "\n" ++ Csv.toCsv x ++ b! "\n", 0⟩

/-- An argument of a JavaScript call: `js.Value.String` returns a string as it is, and a description in angle brackets of anything else
(syscall/js). The conversion between UTF-16 and UTF-8 is not modelled. -/
inductive Arg where
  | str (s : Bytes)
  | other (description : Bytes)

/-- `args[0].String()`. -/
def Arg.text : Arg → Bytes
  | .str s => s
  | .other d => b! "<" ++ d ++ b! ">"

/-- `src := ""; if 0 < len(args) { src = args[0].String() }`: wasm/main.go:14-17, 43-46. -/
def sourceOf : List Arg → Bytes
  | [] => []
  | a :: _ => a.text

/-- What is left of the result of a parser when its error has only been printed: wasm/main.go:19-22, 48-51, 60-63. -/
def orElse {α : Type} (d : α) : ParseRes α → α
  | .value v => v
  | .failed _ _ => d

/-- `parseCsv`: wasm/main.go:13-40. The loops copy the table into a slice of slices of `interface{}`; `csv.Parse` returns nil with an error. -/
def parseCsv (fuel : Nat) (args : List Arg) : Out (List (List Bytes)) := do
  return orElse [] (← Csv.parse fuel (sourceOf args))

/-- `parseCsvWithTinyGo`: wasm/main.go:56-67. -/
def parseCsvWithTinyGo (fuel : Nat) (src : Bytes) : Out (List (List Bytes)) := do
  return orElse [] (← Csv.parse fuel src)

/-- The conversion of a natural number below 2^64 to a float64: it is rounded to 53 bits, to the nearest and to even (Go specification,
conversions; IEEE 754). The float64 is given by its value. -/
def roundNat (n : Nat) : Nat :=
  let u := 2 ^ (n.log2 + 1 - 53)
  let q := n / u
  let r := n % u
  if 2 * r < u ∨ (2 * r = u ∧ q % 2 = 0) then q * u else (q + 1) * u

/-- `float64(x)`. -/
def toFloat (x : Int64) : Int := if x.toInt < 0 then -(roundNat x.toInt.natAbs : Int) else roundNat x.toInt.natAbs

/-- `parseFormula`: wasm/main.go:42-54. `js.ValueOf` turns the int64 into a JavaScript number, which is a float64. -/
def parseFormula (fuel : Nat) (args : List Arg) : Out Int := do
  return toFloat (orElse 0 (← Formula.parse fuel (sourceOf args)))

end Takenoco.Programs
