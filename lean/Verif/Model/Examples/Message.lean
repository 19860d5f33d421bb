import Verif.Model.Examples.ToRpn
import Verif.Model.Examples.Csv
import Verif.Model.Examples.Marshal
/-
Layer A model of the texts of error messages, and of the names of the constants: /repo/base/ast.go:42-71, /repo/base/types.go:51-62,
/repo/string/transformers.go:29, 83, 117, 148 and the ends of `Parse` in the three examples.
-/
namespace Takenoco

/-- A Go string constant, as bytes. -/
def goString (s : String) : Bytes := s.toList.flatMap fun c => encodeRune c.toNat

/-- The value of the constant, by `iota`: ast.go:15-39. -/
def AstType.code : AstType → Nat
  | .nil => 0 | .rune => 1 | .int => 2 | .uint => 3 | .float => 4 | .bool => 5 | .string => 6 | .astCons => 7 | .listOfAst => 8
  | .listOfAny => 9 | .function => 10 | .any => 11

/-- `AstType.String`: ast.go:42-71. The type is a `uint` in Go: the argument is any natural number. -/
def astTypeString : Nat → String
  | 0 => "Nil" | 1 => "Rune" | 2 => "Int" | 3 => "Uint" | 4 => "Float" | 5 => "Bool" | 6 => "String" | 7 => "AstCons" | 8 => "ListOfAst"
  | 9 => "ListOfAny" | 10 => "Function" | 11 => "Any"
  | _ => "Unknown"

/-- The value of the constant, by `iota`: types.go:41-48. -/
def Status.code : Status → Int
  | .matched => 0 | .unmatched => 1 | .error => 2

/-- `MatchStatusType.String`: types.go:51-62. The type is an `int` in Go. -/
def matchStatusString (t : Int) : String :=
  if t = 0 then "Matched" else if t = 1 then "Unmatched" else if t = 2 then "Error" else "Unknown"

/-- `strconv.Quote(s)` for texts of printable ASCII characters without `"` and `\`. Simplification: other texts are not modelled. -/
def quote (s : Bytes) : Option Bytes :=
  if s.all (fun b => 0x20 ≤ b && b < 0x7f && b != 0x22 && b != 0x5c) then some (b! "\"" ++ s ++ b! "\"") else none

/-- `(*strconv.NumError).Error()`: `"strconv." + e.Func + ": parsing " + Quote(e.Num) + ": " + e.Err.Error()`. Simplification: the error
for a wrong base, whose text contains the base, is not modelled. -/
def numErrorText (fn : String) (s : Bytes) : NumErr → Option Bytes
  | .syntax => (quote s).map fun q => goString ("strconv." ++ fn ++ ": parsing ") ++ q ++ goString ": invalid syntax"
  | .range => (quote s).map fun q => goString ("strconv." ++ fn ++ ": parsing ") ++ q ++ goString ": value out of range"
  | .base => none

/-- The number that `parseUintImpl` gives to `strconv`: without the leading plus sign (transformers.go:111-114). -/
def unsignedText : Bytes → Bytes
  | 0x2b :: s => s
  | s => s

/-- `err.Error()`. `none`: not modelled (errors of `time.Parse` and of user code, and the exceptions above). -/
def Err.text : Err → Option Bytes
  | .msg s => some (goString s)
  | .concatBadType t => some (goString ("Transformer:Concat: Bad source type:" ++ astTypeString t.code))
  | .badNumber impl s e =>
    let fn := if impl = "parseIntImpl" then "ParseInt" else if impl = "parseUintImpl" then "ParseUint" else "ParseFloat"
    (numErrorText fn (if impl = "parseUintImpl" then unsignedText s else s) e).map fun m =>
      goString ("Transformer:" ++ impl ++ ":Bad number format:") ++ s ++ goString ":" ++ m
  | .strconv s e => numErrorText "ParseInt" s e
  | .timeParse _ => none
  | .user _ => none

/-- The first part of the message: the error, or "Parse failed" if there is none. -/
def cause : Option Err → Option Bytes
  | some e => e.text
  | none => some (goString "Parse failed")

/-- The text of the error that `Parse` returns: formula.go:150-154, 161-165, torpn.go:149-154, 173-177, csv/parser.go:134-138, 145-149.
`strconv.Itoa(i)` is `FormatInt(int64(i), 10)`. -/
def errorText (e : Option Err) (p : LineAndCol) : Option Bytes :=
  (cause e).map fun m =>
    m ++ goString "\n --> Line " ++ Csv.formatInt p.line ++ goString ", Col " ++ Csv.formatInt p.col ++ goString "\n" ++ p.errSource

end Takenoco
