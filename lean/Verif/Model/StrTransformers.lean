import Verif.Model.Transformers
import Verif.Model.StrParsers
import Verif.Model.Strconv
/-
Layer A model of /repo/string/transformers.go, with the standard library functions `strings.Trim`,
`strings.TrimLeft`, `strings.TrimRight` for the cut set used there.
-/
namespace Takenoco

/-- The type assertion `w.Value.(string)`. -/
def asStr : Value → Out Bytes
  | .str s => .ok s
  | _ => .panic .typeAssert

/-- The loop of `Concat`: transformers.go:27-32. The type tag is checked before the type assertion. -/
def concatLoop : Bytes → List Ast → Out (Bytes × Option Err)
  | acc, [] => .ok (acc, none)
  | acc, w :: ws =>
    if w.ty ≠ .string then .ok ([], some (.concatBadType w.ty))
    else
      match asStr w.val with
      | .ok s => concatLoop (acc ++ s) ws
      | .panic p => .panic p
      | .timeout => .timeout

/-- `Concat`: transformers.go:19-39. An error comes with a nil slice. -/
def concat : TSem := fun _ asts =>
  match asts with
  | [] => .ok ([{ Ast.zero with ty := .string, val := .str [] }], none)
  | a :: _ =>
    match concatLoop [] asts with
    | .panic p => .panic p
    | .timeout => .timeout
    | .ok (_, some e) => .ok ([], some e)
    | .ok (s, none) =>
      .ok ([{ Ast.zero with cls := a.cls, ty := .string, val := .str s, pos := a.pos, len := a.len }], none)

/-- Membership in the cut set (transformers.go:14), decided on the decoded rune. -/
def inCutset (r : Nat) : Bool :=
  r == 0x09 || r == 0x0a || r == 0x0b || r == 0x0c || r == 0x0d || r == 0x20 || r == 0x85 || r == 0xa0

/-- Go `strings.TrimLeft(s, cutset)` (`trimLeftUnicode`: the cut set is not all ASCII). The number bounds
the loop; `s.length` suffices. -/
def trimLeftN : Nat → Bytes → Bytes
  | 0, s => s
  | k + 1, s =>
    if s = [] then s
    else if inCutset (decodeRune s).1 then trimLeftN k (s.drop (decodeRune s).2)
    else s

/-- Go `strings.TrimRight(s, cutset)` (`trimRightUnicode`). -/
def trimRightN : Nat → Bytes → Bytes
  | 0, s => s
  | k + 1, s =>
    if s = [] then s
    else if inCutset (decodeLastRune s).1 then trimRightN k (s.take (s.length - (decodeLastRune s).2))
    else s

/-- `strings.TrimLeft(s, cutset)` -/
def trimLeft (s : Bytes) : Bytes := trimLeftN s.length s
/-- `strings.TrimRight(s, cutset)` -/
def trimRight (s : Bytes) : Bytes := trimRightN s.length s
/-- `strings.Trim(s, cutset)`: trims right, then left. -/
def trimBoth (s : Bytes) : Bytes := trimLeft (trimRight s)

/-- The shape of the transformers that call `Concat` first and then change the single AST
(transformers.go:43-153): `f` gets the concatenated string and the AST. -/
def afterConcat (f : Bytes → Ast → Out (List Ast × Option Err)) : TSem := fun ctx asts =>
  match concat ctx asts with
  | .panic p => .panic p
  | .timeout => .timeout
  | .ok (_, some e) => .ok ([], some e)
  | .ok (asts, none) =>
    match asts with
    | [] => .panic .index
    | a :: _ =>
      match asStr a.val with
      | .ok s => f s a
      | .panic p => .panic p
      | .timeout => .timeout

/-- `Trim`: transformers.go:43-50. -/
def trim : TSem := afterConcat fun s a => .ok ([{ a with val := .str (trimBoth s) }], none)
/-- `TrimStart`: transformers.go:54-61. -/
def trimStart : TSem := afterConcat fun s a => .ok ([{ a with val := .str (trimLeft s) }], none)
/-- `TrimEnd`: transformers.go:65-72. -/
def trimEnd : TSem := afterConcat fun s a => .ok ([{ a with val := .str (trimRight s) }], none)

/-- `parseIntImpl`: transformers.go:75-89; `ParseIntRadix`: 93-97. -/
def parseIntRadix (base : Int) : TSem := afterConcat fun s a =>
  match parseInt s base with
  | .error e => .ok ([], some (.badNumber "parseIntImpl" s e))
  | .ok num => .ok ([{ a with ty := .int, val := .int (Int64.ofInt num) }], none)

/-- `ParseInt`: transformers.go:101-103. -/
def parseIntT : TSem := parseIntRadix 10

/-- `parseUintImpl`: transformers.go:106-124; `ParseUintRadix`: 128-132. `str2[0]` panics on the empty
string. -/
def parseUintRadix (base : Int) : TSem := afterConcat fun s a =>
  match s with
  | [] => .panic .index
  | c :: cs =>
    let s2 := if c = 0x2b then cs else s
    match parseUint s2 base with
    | .error e => .ok ([], some (.badNumber "parseUintImpl" s e))
    | .ok num => .ok ([{ a with ty := .uint, val := .uint (UInt64.ofNat num) }], none)

/-- `ParseUint`: transformers.go:136-138. -/
def parseUintT : TSem := parseUintRadix 10

/-- `ParseFloat`: transformers.go:142-155. `strconv.ParseFloat` is a parameter (result: bit pattern). -/
def parseFloatT (pf : Bytes → NumRes UInt64) : TSem := afterConcat fun s a =>
  match pf s with
  | .error e => .ok ([], some (.badNumber "ParseFloat" s e))
  | .ok num => .ok ([{ a with ty := .float, val := .float num }], none)

/-- The shape of transformers.go:159-197: replace everything by one AST made from the head. -/
def fromHead (ty : AstType) (f : Value → Out Value) : TSem := fun _ asts =>
  match asts with
  | [] => .panic .index
  | a :: _ =>
    match f a.val with
    | .ok v => .ok ([{ Ast.zero with cls := a.cls, ty := ty, val := v, pos := a.pos, len := a.len }], none)
    | .panic p => .panic p
    | .timeout => .timeout

/-- `string(r)` for a `rune` (int32): negative values give U+FFFD like every other invalid rune. -/
def runeToString (r : Int32) : Bytes :=
  if r.toInt < 0 then encodeRune runeError else encodeRune r.toInt.toNat

/-- `RuneFromInt`: transformers.go:159-166 (the type tag is `AstType_Any`). -/
def runeFromInt : TSem := fromHead .any fun
  | .int i => .ok (.rune i.toInt32)
  | _ => .panic .typeAssert
/-- `IntFromRune`: transformers.go:170-177 (the type tag is `AstType_String`). -/
def intFromRune : TSem := fromHead .string fun
  | .rune r => .ok (.int r.toInt64)
  | _ => .panic .typeAssert
/-- `StringFromInt`: transformers.go:181-188. -/
def stringFromInt : TSem := fromHead .string fun
  | .int i => .ok (.str (runeToString i.toInt32))
  | _ => .panic .typeAssert
/-- `StringFromRune`: transformers.go:192-197. -/
def stringFromRune : TSem := fromHead .string fun
  | .rune r => .ok (.str (runeToString r))
  | _ => .panic .typeAssert

end Takenoco
