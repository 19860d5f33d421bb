import Verif.Model.Parsers
import Verif.Model.Utf8
/-
Layer A model of /repo/string/parsers.go, /repo/string/util.go, /repo/string/const.go and
/repo/string/new.go.
-/
namespace Takenoco

/-- `NewStringParserContext`: new.go:8-13 (all other fields have Go zero values). -/
def newStrCtx (s : Bytes) : Ctx :=
  { str := s, slice := none, pos := 0, len := 0, qty := 0, stack := [], status := .matched, cls := "",
    tag := .nil }

/-- `NewStringParserContextWithTag`: new.go:16-22. -/
def newStrCtxTag (s : Bytes) (t : Value) : Ctx := { newStrCtx s with tag := t }

/-- const.go:7 -/
def whitespaceCharacters : List Bytes :=
  [[0x09], [0x0a], [0x0b], [0x0c], [0x0d], [0x20], [0xc2, 0x85], [0xc2, 0xa0]]
/-- const.go:9 -/
def whitespaceNoLineBreakCharacters : List Bytes := [[0x09], [0x20], [0xc2, 0xa0]]
/-- const.go:11 -/
def lineBreakCharacters : List Bytes := [[0x0a], [0x0b], [0x0c], [0x0d], [0xc2, 0x85]]

/-- util.go:4-12 -/
def isWhitespace (r : Nat) : Bool :=
  r == 0x09 || r == 0x0a || r == 0x0b || r == 0x0c || r == 0x0d || r == 0x20 || r == 0x85 || r == 0xa0
/-- util.go:15-23 -/
def isWhitespaceNoLineBreak (r : Nat) : Bool := r == 0x09 || r == 0x20 || r == 0xa0
/-- util.go:26-34 -/
def isLineBreak (r : Nat) : Bool := r == 0x0a || r == 0x0b || r == 0x0c || r == 0x0d || r == 0x85

/-- `lo <= r && r <= hi` -/
def inRange (lo hi r : Nat) : Bool := decide (lo ≤ r ∧ r ≤ hi)

/-- `'A' <= ch && ch <= 'Z' || 'a' <= ch && ch <= 'z'`: parsers.go:346 -/
def isAlpha (r : Nat) : Bool := inRange 0x41 0x5a r || inRange 0x61 0x7a r
/-- parsers.go:373 -/
def isNumber (r : Nat) : Bool := inRange 0x30 0x39 r
/-- parsers.go:400 -/
def isAlnum (r : Nat) : Bool := inRange 0x41 0x5a r || inRange 0x61 0x7a r || inRange 0x30 0x39 r
/-- parsers.go:427 -/
def isBin (r : Nat) : Bool := inRange 0x30 0x31 r
/-- parsers.go:454 -/
def isOct (r : Nat) : Bool := inRange 0x30 0x37 r
/-- parsers.go:481 -/
def isHex (r : Nat) : Bool := inRange 0x30 0x39 r || inRange 0x41 0x46 r || inRange 0x61 0x66 r
/-- util.go:37-43 -/
def isWord (r : Nat) : Bool :=
  inRange 0x41 0x5a r || inRange 0x61 0x7a r || inRange 0x30 0x39 r || r == 0x5f || r == 0x24

/-- Push a string token and advance: the statement block that every terminal executes on a match
(e.g. parsers.go:23-31). The AST gets `ctx.SourcePosition` as it was before advancing. -/
def pushStr (cls : String) (v : Bytes) (length : Nat) (ctx : Ctx) : Ctx :=
  { ctx with
    stack := ctx.stack ++ [{ Ast.zero with
      cls := cls, ty := .string, val := .str v, pos := ctx.pos, len := ctx.len }]
    pos := ctx.pos + length
    len := length
    status := .matched }

/-- The context with status unmatched: `ctx.MatchStatus = MatchStatus_Unmatched` (e.g. parsers.go:15). -/
def unm (ctx : Ctx) : Ctx := { ctx with status := .unmatched }

/-- The common shape of the terminals that look at one character (parsers.go:12-35, 227-251, 254-494):
decode the rune at the current position (`ctx.Str[ctx.Position:]` panics past the end), and push it
re-encoded when it satisfies `p`. -/
def charFn (cls : String) (p : Nat → Bool) : Sem := fun ctx =>
  if ctx.str.length < ctx.pos then .panic .index
  else
    let (ch, length) := decodeRune (ctx.str.drop ctx.pos)
    if length = 0 then .ok (unm ctx, none)
    else if p ch then .ok (pushStr cls (encodeRune ch) length ctx, none)
    else .ok (unm ctx, none)

/-- `Any`: parsers.go:12-35. -/
def anyS : Sem := lightParser ":string:Any" (charFn ":string:Any" fun _ => true)

/-- `End`: parsers.go:38-50. -/
def endS : Sem := lightParser ":string:End" fun ctx =>
  if ctx.pos = ctx.str.length then .ok ({ ctx with len := 0, status := .matched }, none)
  else .ok (unm ctx, none)

/-- `ctx.Position+length <= len(ctx.Str) && ctx.Str[ctx.Position:ctx.Position+length] == s` -/
def hasPrefixAt (s : Bytes) (ctx : Ctx) : Bool :=
  decide (ctx.pos + s.length ≤ ctx.str.length) && (ctx.str.drop ctx.pos).take s.length == s

/-- `Seq`: parsers.go:53-75. -/
def seqS (s : Bytes) : Sem := lightParser ":string:Seq" fun ctx =>
  if hasPrefixAt s ctx then .ok (pushStr ":string:Seq" s s.length ctx, none)
  else .ok (unm ctx, none)

/-- Go `strings.EqualFold` (standard library). Non-ASCII case folding orbits (`unicode.SimpleFold`) are
a parameter `orbit`. The number bounds the loop; `s.length` suffices. -/
def equalFold (orbit : Nat → Nat → Bool) : Nat → Bytes → Bytes → Bool
  | 0, s, t => s.isEmpty && t.isEmpty
  | k + 1, s, t =>
    match s, t with
    | [], [] => true
    | [], _ => false
    | _, [] => false
    | _, _ =>
      let (sr, sn) := decodeRune s
      let (tr, tn) := decodeRune t
      let lo := min sr tr
      let hi := max sr tr
      if sr = tr ∨ (if hi < 0x80 then inRange 0x41 0x5a lo && hi == lo + 32 else orbit lo hi) then
        equalFold orbit k (s.drop sn) (t.drop tn)
      else false

/-- `SeqI`: parsers.go:78-100. -/
def seqIS (orbit : Nat → Nat → Bool) (s : Bytes) : Sem := lightParser ":string:SeqI" fun ctx =>
  if ctx.pos + s.length ≤ ctx.str.length then
    let w := (ctx.str.drop ctx.pos).take s.length
    if equalFold orbit w.length w s then .ok (pushStr ":string:SeqI" w s.length ctx, none)
    else .ok (unm ctx, none)
  else .ok (unm ctx, none)

/-- `RuneRange`: base/types.go:105-110. -/
structure RuneRange where
  start : Int
  «end» : Int

/-- `rr.Start <= ch && ch <= rr.End` for some range: parsers.go:114-115 -/
def inRanges (cr : List RuneRange) (ch : Nat) : Bool :=
  cr.any fun rr => decide (rr.start ≤ ch ∧ (ch : Int) ≤ rr.end)

/-- `CharRange`: parsers.go:103-130. -/
def charRange (cr : List RuneRange) : Sem :=
  lightParser ":string:CharRange" (charFn ":string:CharRange" (inRanges cr))

/-- `CharRangeN`: parsers.go:133-160. -/
def charRangeN (cr : List RuneRange) : Sem :=
  lightParser ":string:CharRangeN" (charFn ":string:CharRangeN" fun ch => !inRanges cr ch)

/-- `CharClass`: parsers.go:163-188. -/
def charClassFn' (ctx : Ctx) : List Bytes → Out PRes
  | [] => .ok (unm ctx, none)
  | s :: cc =>
    if hasPrefixAt s ctx then .ok (pushStr ":string:CharClass" s s.length ctx, none)
    else charClassFn' ctx cc

/-- `CharClass`: parsers.go:163-188. -/
def charClass (cc : List Bytes) : Sem := lightParser ":string:CharClass" fun ctx => charClassFn' ctx cc

/-- `CharClassN`: parsers.go:191-224. -/
def charClassN (cc : List Bytes) : Sem := lightParser ":string:CharClassN" fun ctx =>
  if cc.any (fun s => hasPrefixAt s ctx) then .ok (unm ctx, none)
  else charFn ":string:CharClassN" (fun _ => true) ctx

/-- `CharClassFn`: parsers.go:227-251. The predicate is assumed to be a pure total function. -/
def charClassFn (fn : Nat → Bool) : Sem :=
  lightParser ":string:CharClassFn" (charFn ":string:CharClassFn" fn)

/-- `Whitespace`: parsers.go:254-278. -/
def whitespace : Sem := lightParser ":string:Whitespace" (charFn ":string:Whitespace" isWhitespace)
/-- `WhitespaceNoLineBreak`: parsers.go:281-305. -/
def whitespaceNoLineBreak : Sem :=
  lightParser ":string:WhitespaceNoLineBreak"
    (charFn ":string:WhitespaceNoLineBreak" isWhitespaceNoLineBreak)
/-- `LineBreak`: parsers.go:308-332. -/
def lineBreak : Sem := lightParser ":string:LineBreak" (charFn ":string:LineBreak" isLineBreak)
/-- `Alpha`: parsers.go:335-359. -/
def alpha : Sem := lightParser ":string:Alpha" (charFn ":string:Alpha" isAlpha)
/-- `Number`: parsers.go:362-386. -/
def number : Sem := lightParser ":string:Number" (charFn ":string:Number" isNumber)
/-- `Alnum`: parsers.go:389-413. -/
def alnum : Sem := lightParser ":string:Alnum" (charFn ":string:Alnum" isAlnum)
/-- `BinNumber`: parsers.go:416-440. -/
def binNumber : Sem := lightParser ":string:BinNumber" (charFn ":string:BinNumber" isBin)
/-- `OctNumber`: parsers.go:443-467. -/
def octNumber : Sem := lightParser ":string:OctNumber" (charFn ":string:OctNumber" isOct)
/-- `HexNumber`: parsers.go:470-494. -/
def hexNumber : Sem := lightParser ":string:HexNumber" (charFn ":string:HexNumber" isHex)

/-- `b <= 0x7f || 0xc2 <= b && b <= 0xf0 || b == 0xf3`: parsers.go:521 (and extra.go:265). The comment
there notes that 0xf1, 0xf2, 0xf4 are missing. -/
def isLeadByte (b : Nat) : Bool := decide (b ≤ 0x7f ∨ (0xc2 ≤ b ∧ b ≤ 0xf0) ∨ b = 0xf3)

/-- The loop `for i := ctx.Position - 1; 0 <= i; i--`: parsers.go:515-525. Argument `i + 1`; the result
is `(prevCh, prevChLength)`, `(0, 0)` if no lead byte is found. (`ctx.Str[i]` is in range.) -/
def prevRune (s : Bytes) : Nat → Nat × Nat
  | 0 => (0, 0)
  | i + 1 => if isLeadByte (s.getD i 0).toNat then decodeRune (s.drop i) else prevRune s i

/-- The body shared by `WordBoundary` (parsers.go:497-541) and `UnicodeWordBoundary`
(extra/extra.go:241-285), over the word predicate. -/
def wordBoundaryFn (isW : Nat → Bool) : Sem := fun ctx0 =>
  let ctx := { ctx0 with len := 0, status := .unmatched }
  let yes : PRes := ({ ctx with status := .matched }, none)
  let no : PRes := (ctx, none)
  if ctx.str.length < ctx.pos then .panic .index
  else
    let (ch, length) := decodeRune (ctx.str.drop ctx.pos)
    if ctx.pos = 0 then
      if 0 < length ∧ isW ch then .ok yes else .ok no
    else
      let (prevCh, prevChLength) := prevRune ctx.str ctx.pos
      if ctx.pos = ctx.str.length then
        if 0 < prevChLength ∧ isW prevCh then .ok yes else .ok no
      else if length ≠ 0 ∧ prevChLength ≠ 0 then
        if (isW prevCh ∧ ¬ isW ch) ∨ (¬ isW prevCh ∧ isW ch) then .ok yes else .ok no
      else .ok no

/-- `WordBoundary`: parsers.go:497-541. -/
def wordBoundary : Sem := lightParser ":string:WordBoundary" (wordBoundaryFn isWord)

end Takenoco
