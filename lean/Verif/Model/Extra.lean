import Verif.Model.Gram
/-
Layer A model of /repo/extra/extra.go, /repo/extra/util.go. Membership in the Unicode tables of Go's
package `unicode` is a parameter. (extra/transformers.go is in Time.lean.)
-/
namespace Takenoco.Extra
open Gram

/-- `RuneRange{Start: a, End: b}` -/
abbrev rr (a b : Nat) : RuneRange := ⟨a, b⟩

/-- `CharRange(RuneRange{...})` with one range -/
abbrev range (a b : Nat) : Gram := .prim (charRange [rr a b])

/-- `erase(CharClass("_"))` -/
def eraseUnderscore : Gram := erased (.prim (charClass [b! "_"]))

/-- `BinaryNumberStr`: extra.go:19-33. -/
def binaryNumberStr : Gram :=
  .trans (.flatGroup [range 0x30 0x31, Gram.star [.first [range 0x30 0x31, eraseUnderscore]]])
    [.fn concat, .fn (changeClassName ":extra:BinaryNumberStr")]

/-- `OctalNumberStr`: extra.go:36-50. -/
def octalNumberStr : Gram :=
  .trans (.flatGroup [range 0x30 0x37, Gram.star [.first [range 0x30 0x37, eraseUnderscore]]])
    [.fn concat, .fn (changeClassName ":extra:OctalNumberStr")]

/-- `HexNumberStr`: extra.go:53-73. -/
def hexNumberStr : Gram :=
  .trans
    (.flatGroup [
      .first [.prim number, range 0x41 0x46, range 0x61 0x66],
      Gram.star [.first [.prim number, range 0x41 0x46, range 0x61 0x66, eraseUnderscore]]])
    [.fn concat, .fn (changeClassName ":extra:HexNumberStr")]

/-- `CharClass("+", "-")` -/
def plusMinus : Gram := .prim (charClass [b! "+", b! "-"])

/-- `First(Number(), erase(CharClass("_")))` -/
def digitOr_ : Gram := .first [.prim number, eraseUnderscore]

/-- `FlatGroup(CharClass("0"), ZeroOrMoreTimes(erase(CharClass("_"))))`: extra.go:81-84. -/
def zeroLit : Gram := .flatGroup [.prim (charClass [b! "0"]), Gram.star [eraseUnderscore]]

/-- `FlatGroup(Number(), ZeroOrMoreTimes(First(Number(), erase(CharClass("_")))))`: extra.go:85-88. -/
def digits : Gram := .flatGroup [.prim number, Gram.star [digitOr_]]

/-- `IntegerNumberStr`: extra.go:76-94. -/
def integerNumberStr : Gram :=
  .trans (.flatGroup [Gram.opt [plusMinus], .first [zeroLit, digits]])
    [.fn concat, .fn (changeClassName ":extra:IntegerNumberStr")]

/-- `exponentStr`: extra.go:97-106. -/
def exponentStr : Gram :=
  .flatGroup [.prim (charClass [b! "E", b! "e"]), Gram.opt [plusMinus], digits]

/-- `CharClass(".")` -/
def dot : Gram := .prim (charClass [b! "."])

/-- `FloatNumberStr`: extra.go:109-150. -/
def floatNumberStr : Gram :=
  .trans
    (.flatGroup [
      Gram.opt [plusMinus],
      .first [
        .flatGroup [
          .first [zeroLit, digits],
          .flatGroup [dot, Gram.star [digitOr_]],
          Gram.opt [exponentStr]],
        .flatGroup [dot, Gram.plus [digitOr_], Gram.opt [exponentStr]],
        .flatGroup [.first [zeroLit, digits], exponentStr]]])
    [.fn concat, .fn (changeClassName ":extra:FloatNumberStr")]

/-- `NumericStr`: extra.go:153-180. -/
def numericStr : Gram :=
  .trans
    (.flatGroup [
      Gram.opt [plusMinus],
      .first [
        .flatGroup [.first [zeroLit, digits], Gram.opt [dot, Gram.star [digitOr_]]],
        .flatGroup [dot, Gram.plus [digitOr_]]],
      Gram.opt [exponentStr]])
    [.fn concat, .fn (changeClassName ":extra:NumericStr")]

/-- `AsciiIdentifierStr`: extra.go:183-198. -/
def asciiIdentifierStr : Gram :=
  .trans
    (.flatGroup [
      Gram.one [.first [.prim alpha, .prim (charClass [b! "_", b! "$"])]],
      Gram.star [.first [.prim alnum, .prim (charClass [b! "_", b! "$"])]]])
    [.fn concat, .fn (changeClassName ":extra:IdentifierStr")]

/-- The Unicode tables used by extra.go and util.go, as predicates on runes. -/
structure UnicodeTables where
  L : Nat → Bool
  Nl : Nat → Bool
  Other_ID_Start : Nat → Bool
  Mn : Nat → Bool
  Mc : Nat → Bool
  Nd : Nat → Bool
  Pc : Nat → Bool
  Other_ID_Continue : Nat → Bool
  Pattern_Syntax : Nat → Bool
  Pattern_White_Space : Nat → Bool

/-- extra.go:207-214 -/
def idStart (u : UnicodeTables) (c : Nat) : Bool :=
  (u.L c || u.Nl c || u.Other_ID_Start c) && !u.Pattern_Syntax c && !u.Pattern_White_Space c

/-- extra.go:219-232 -/
def idContinue (u : UnicodeTables) (c : Nat) : Bool :=
  (u.L c || u.Nl c || u.Other_ID_Start c || u.Mn c || u.Mc c || u.Nd c || u.Pc c ||
    u.Other_ID_Continue c || c == 0x200c || c == 0x200d) &&
  !u.Pattern_Syntax c && !u.Pattern_White_Space c

/-- `UnicodeIdentifierStr`: extra.go:201-238. -/
def unicodeIdentifierStr (u : UnicodeTables) : Gram :=
  .trans
    (.flatGroup [
      Gram.one [.first [.prim (charClass [b! "_", b! "$"]), .prim (charClassFn (idStart u))]],
      Gram.star [.first [.prim (charClass [b! "$"]), .prim (charClassFn (idContinue u))]]])
    [.fn concat, .fn (changeClassName ":extra:IdentifierStr")]

/-- `isUnicodeWord`: util.go:6-20. -/
def isUnicodeWord (u : UnicodeTables) (r : Nat) : Bool :=
  (u.L r || u.Nl r || u.Other_ID_Start r || u.Mn r || u.Mc r || u.Nd r || u.Pc r ||
    u.Other_ID_Continue r || r == 0x24 || r == 0x200c || r == 0x200d) &&
  !u.Pattern_Syntax r && !u.Pattern_White_Space r

/-- `UnicodeWordBoundary`: extra.go:241-285. -/
def unicodeWordBoundary (u : UnicodeTables) : Sem :=
  lightParser ":string:WordBoundary" (wordBoundaryFn (isUnicodeWord u))

/-- `Seq(s)` -/
abbrev seqG (s : Bytes) : Gram := .prim (seqS s)

/-- `DateStr`: extra.go:288-303. -/
def dateStr : Gram :=
  .trans
    (.flatGroup [
      Gram.opt [seqG (b! "-")],
      .repeat ⟨4, -1⟩ [.prim number],
      seqG (b! "-"), range 0x30 0x31, range 0x30 0x39,
      seqG (b! "-"), range 0x30 0x33, range 0x30 0x39])
    [.fn concat, .fn (changeClassName ":extra:DateStr")]

/-- The anonymous transformer in extra.go:338-343, 404-409: pad the fraction with zeros to 9 digits.
`[0:9]` cannot fail because nine zeros were appended. -/
def padFraction : TSem := fun _ asts =>
  match asts.getLast? with
  | none => .panic .index
  | some a =>
    match asStr a.val with
    | .ok s => .ok ([{ Ast.zero with ty := .string, val := .str ((s ++ b! "000000000").take 9) }], none)
    | .panic p => .panic p
    | .timeout => .timeout

/-- `Ast{Type: AstType_String, Value: s}` -/
def strAst (s : Bytes) : Ast := { Ast.zero with ty := .string, val := .str s }

/-- Seconds and fraction: extra.go:325-356, 391-422. -/
def secondsStr : Gram :=
  .first [
    .flatGroup [
      seqG (b! ":"), range 0x30 0x36, range 0x30 0x39,
      .first [
        .flatGroup [
          seqG (b! "."),
          .trans (.repeat ⟨1, 9⟩ [range 0x30 0x39]) [.fn concat, .fn padFraction]],
        .prim (zeroP [strAst (b! ".000000000")])]],
    .prim (zeroP [strAst (b! ":00.000000000")])]

/-- `DateTimeStr`: extra.go:308-379. -/
def dateTimeStr : Gram :=
  .trans
    (.flatGroup [
      Gram.opt [seqG (b! "-")],
      .repeat ⟨4, -1⟩ [.prim number],
      seqG (b! "-"), range 0x30 0x31, range 0x30 0x39,
      seqG (b! "-"), range 0x30 0x33, range 0x30 0x39,
      seqG (b! "T"), range 0x30 0x32, range 0x30 0x39,
      seqG (b! ":"), range 0x30 0x35, range 0x30 0x39,
      secondsStr,
      .first [
        .flatGroup [erased (seqG (b! "Z")), .prim (zeroP [strAst (b! "+00:00")])],
        .flatGroup [
          plusMinus, .repeat ⟨2, 2⟩ [range 0x30 0x39], seqG (b! ":"), range 0x30 0x35, range 0x30 0x39]]])
    [.fn concat, .fn (changeClassName ":extra:DateTimeStr")]

/-- `TimeStr`: extra.go:383-427. -/
def timeStr : Gram :=
  .trans
    (.flatGroup [
      range 0x30 0x32, range 0x30 0x39, seqG (b! ":"), range 0x30 0x35, range 0x30 0x39, secondsStr])
    [.fn concat, .fn (changeClassName ":extra:TimeStr")]

end Takenoco.Extra
