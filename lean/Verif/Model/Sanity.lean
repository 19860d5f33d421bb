import Verif.Model.Examples.Csv
import Verif.Model.Examples.ToRpn
/-
Sanity checks of the model (not proofs): the inputs of the repository's own tests
(/repo/_examples/formula/formula_test.go, torpn/torpn_test.go, csv/test_1_test.go) give the results
expected there when the model is executed.
-/
namespace Takenoco.Sanity

private def val? {α : Type} : Out (Formula.ParseRes α) → Option α
  | .ok (.value v) => some v
  | _ => none

private def formula (s : Bytes) : Option Int := (val? (Formula.parse 100 s)).map (·.toInt)

#guard formula (b! "17") = some 17
#guard formula (b! " 17 ") = some 17
#guard formula (b! "----17") = some 17
#guard formula (b! "17+19") = some 36
#guard formula (b! " 17 + 19 ") = some 36
#guard formula (b! "(1*2+3)*(4-5*6)+7") = some (-123)
#guard formula (b! " ( 1 * 2 + 3) * ( 4 - 5 * 6 ) + 7 ") = some (-123)
#guard formula (b! "7+(1*2+3)*(4-5*6)") = some (-123)
#guard formula (b! " 7 + ( 1 * 2 + 3 ) * ( 4 - 5 * 6 ) ") = some (-123)
#guard formula (b! "-7+(1*2+3)*(4-5*6)") = some (-137)
#guard formula (b! "-7+-(1*2+3)*(4-5*6)") = some 123
#guard formula (b! "-7+-(1*2+3)*-(4-5*6)") = some (-137)
#guard formula (b! "-7+-(1*2+a3)*-(4-5*6)") = none

private def showV : Value → String
  | .int i => toString i.toInt
  | .str s => String.fromUTF8! (ByteArray.mk s.toArray)
  | _ => "?"

private def rpn (s : Bytes) : Option (List String) := (val? (ToRpn.parse 100 s)).map (·.map showV)

#guard rpn (b! "1+2*3") = some ["1", "2", "3", "*", "+"]
#guard rpn (b! "(1+2)*3") = some ["1", "2", "+", "3", "*"]
#guard rpn (b! "((((1+2)))*3)") = some ["1", "2", "+", "3", "*"]
#guard rpn (b! "-1-2*-3") = some ["-1", "2", "-3", "*", "-"]
#guard rpn (b! "-(1+2)*3") = some ["1", "2", "+", "-", "3", "*"]
#guard rpn (b! "--(1+2)*3") = some ["1", "2", "+", "-", "-", "3", "*"]
#guard rpn (b! "3+5*7+11") = some ["3", "5", "7", "*", "+", "11", "+"]
#guard rpn (b! "(3+5)*(7+11)") = some ["3", "5", "+", "7", "11", "+", "*"]
#guard rpn (b! "13") = some ["13"]

private def csv (s : Bytes) : Option (List (List Bytes)) := val? (Csv.parse 100 s)

#guard csv (b! "foo,bar") = some [[b! "foo", b! "bar"]]
#guard csv (b! "\"foo\",\"bar\"") = some [[b! "foo", b! "bar"]]
#guard csv (b! "foo,bar\r\n1,2") = some [[b! "foo", b! "bar"], [b! "1", b! "2"]]
#guard csv (b! "\"foo\",\"bar\"\r\n\"1\",\"2\"") = some [[b! "foo", b! "bar"], [b! "1", b! "2"]]
#guard csv (b! "\"foo\",\"bar\"\r\n\"1\",\"2") = none

end Takenoco.Sanity
