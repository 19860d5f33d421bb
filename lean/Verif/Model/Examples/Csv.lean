import Verif.Model.Examples.Formula
/-
Layer A model of /repo/_examples/csv/parser.go and of `toCsvRow`, `ToCsv` in /repo/_examples/csv/marshal.go.
`Marshal` and `Unmarshal` are in Model/Examples/Marshal.lean.
-/
namespace Takenoco.Csv
open Gram
open Formula (ParseRes)

/-- `cellBreakCharacters`: parser.go:18-20. -/
def cellBreakCharacters : List Bytes := b! "," :: lineBreakCharacters

/-- `sp`: parser.go:30-32. -/
def sp : Gram := erased (star [.prim whitespaceNoLineBreak])

/-- `First(erase(Seq("\"\"")), CharClassN("\""))`: parser.go:41-44. -/
def quotedChar : Gram := .first [erased (.prim (seqS (b! "\"\""))), .prim (charClassN [b! "\""])]

/-- The body of the repetition in `quotedCell`: parser.go:37-51. -/
def quotedChunk : Gram :=
  .flatGroup [
    sp,
    erased (.prim (seqS (b! "\""))),
    star [quotedChar],
    .first [
      erased (.prim (seqS (b! "\""))),
      .flatGroup [.prim endS, .prim (errorP "Unexpected EOF")]],
    sp]

/-- `quotedCell`: parser.go:34-55. -/
def quotedCell : Gram := .trans (plus [quotedChunk]) [.fn concat]

/-- `cell`: parser.go:57-62. -/
def cell : Gram := .trans (star [.prim (charClassN cellBreakCharacters)]) [.fn trim]

/-- `for i := 0; i < length; i++ { w[i] = asts[i].Value.(string) }`: parser.go:69-71. -/
def cellValues : List Ast → Out (List Bytes)
  | [] => .ok []
  | a :: as => do
    let s ← asStr a.val
    return s :: (← cellValues as)

/-- `lineTransform`: parser.go:65-78. -/
def lineTransform : TSem := fun _ asts => do
  let row ← cellValues asts
  return ([{ Ast.zero with cls := "*Line", ty := .any, val := .strs row }], none)

/-- `line`: parser.go:80-91. -/
def line : Gram :=
  .trans
    (.flatGroup [
      star [.first [quotedCell, cell], erased (.prim (seqS (b! ",")))],
      .first [quotedCell, cell]])
    [.fn lineTransform]

/-- The type assertion `v.([]string)`. -/
def asStrs : Value → Out (List Bytes)
  | .strs l => .ok l
  | _ => .panic .typeAssert

/-- `w[i] = asts[i].Value.([]string)`: parser.go:98-100. -/
def lineValues : List Ast → Out (List (List Bytes))
  | [] => .ok []
  | a :: as => do
    let l ← asStrs a.val
    return l :: (← lineValues as)

/-- `len(w[i]) == 0 || len(w[i]) == 1 && w[i][0] == ""`: parser.go:102. -/
def isBlankRow (row : List Bytes) : Bool := row == [] || row == [[]]

/-- The loop that drops trailing blank rows: parser.go:101-107. -/
def dropTrailingBlank (rows : List (List Bytes)) : List (List Bytes) :=
  (rows.reverse.dropWhile isBlankRow).reverse

/-- `documentTransform`: parser.go:94-114. -/
def documentTransform : TSem := fun _ asts => do
  let rows ← lineValues asts
  return ([{ Ast.zero with cls := "*Document", ty := .any, val := .strss (dropTrailingBlank rows) }], none)

/-- `document`: parser.go:116-128. -/
def document : Gram :=
  .trans
    (.flatGroup [star [line, erased (plus [.prim lineBreak])], line, .prim endS])
    [.fn documentTransform]

/-- The type assertion `v.([][]string)`. -/
def asStrss : Value → Out (List (List Bytes))
  | .strss l => .ok l
  | _ => .panic .typeAssert

/-- The part of `Parse` after the parser has returned: parser.go:131-150. -/
def finish (s : Bytes) (r : PRes) : Out (ParseRes (List (List Bytes))) := do
  match r with
  | (out, some e) => return .failed (some e) (← getLineAndCol s out.pos 4)
  | (out, none) =>
    if out.status = .matched then return .value (← asStrss (← goGet out.stack 0).val)
    else return .failed none (← getLineAndCol s out.pos 4)

/-- `Parse`: parser.go:130-151. -/
def parse (fuel : Nat) (s : Bytes) : Out (ParseRes (List (List Bytes))) := do
  finish s (← run noEnv fuel document (newStrCtx s))

/-- `0 <= strings.IndexRune(s, r)` for the encoded rune: it occurs as a substring. -/
def containsSub (needle : Bytes) : Bytes → Bool
  | [] => needle.isPrefixOf []
  | c :: cs => needle.isPrefixOf (c :: cs) || containsSub needle cs

/-- The condition for quoting: marshal.go:16-21. -/
def needsQuote (s : Bytes) : Bool :=
  containsSub (b! ",") s || containsSub [0x0a] s || containsSub [0x0b] s || containsSub [0x0c] s ||
    containsSub [0x0d] s || containsSub [0xc2, 0x85] s

/-- One cell of `toCsvRow`: marshal.go:16-27. -/
def csvCell (s : Bytes) : Bytes :=
  if needsQuote s then b! "\"" ++ replaceAll 0x22 (b! "\"\"") s ++ b! "\"" else s

/-- `toCsvRow`: marshal.go:11-29. -/
def toCsvRow : List Bytes → Bytes
  | [] => []
  | [c] => csvCell c
  | c :: cs => csvCell c ++ b! "," ++ toCsvRow cs

/-- `ToCsv`: marshal.go:32-43. -/
def toCsv : List (List Bytes) → Bytes
  | [] => []
  | [r] => toCsvRow r
  | r :: rs => toCsvRow r ++ b! "\n" ++ toCsv rs

end Takenoco.Csv
