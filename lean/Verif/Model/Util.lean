import Verif.Model.Types
/-
Layer A model of /repo/base/util.go. `strings.ReplaceAll` / `strings.Replace` / `strings.Contains` are
only used with one-character needles and are modelled for those.
-/
namespace Takenoco

/-- `LineAndColPosition`: types.go:30-36. -/
structure LineAndCol where
  lineIndex : Nat
  line : Nat
  col : Nat
  position : Nat
  errSource : Bytes
  deriving DecidableEq, Repr

/-- The variables of the first loop: util.go:8-12. -/
structure LineState where
  prevLineIndex : Nat
  lineIndex : Nat
  line : Nat
  col : Nat
  nTabs : Nat
  deriving DecidableEq, Repr

/-- The first loop `for i := 0; i < pos.Position; i++`: util.go:14-37. The bytes are
`src[i:pos.Position]`; the `'\r'` case looks at `src[i+1]` only when `i+1 < pos.Position`. -/
def lineLoop : Nat → LineState → Bytes → LineState
  | _, st, [] => st
  | i, st, c :: cs =>
    if c = 0x0d then
      match cs with
      | d :: cs' =>
        if d = 0x0a then
          lineLoop (i + 2)
            { prevLineIndex := st.lineIndex, lineIndex := i + 2, line := st.line + 1, col := 1, nTabs := 0 } cs'
        else
          lineLoop (i + 1)
            { prevLineIndex := st.lineIndex, lineIndex := i + 1, line := st.line + 1, col := 1, nTabs := 0 }
            (d :: cs')
      | [] =>
        { prevLineIndex := st.lineIndex, lineIndex := i + 1, line := st.line + 1, col := 1, nTabs := 0 }
    else if c = 0x0a then
      lineLoop (i + 1)
        { prevLineIndex := st.lineIndex, lineIndex := i + 1, line := st.line + 1, col := 1, nTabs := 0 } cs
    else if c = 0x09 then
      lineLoop (i + 1) { st with nTabs := st.nTabs + 1, col := st.col + 1 } cs
    else
      lineLoop (i + 1) { st with col := st.col + 1 } cs

/-- The second loop, the length of the rest of the line: util.go:39-49. -/
def restOfLine : Bytes → Nat
  | [] => 0
  | c :: cs => if c = 0x0d ∨ c = 0x0a then 0 else restOfLine cs + 1

/-- `strings.ReplaceAll(s, string(c), by)` -/
def replaceAll (c : UInt8) (by_ : Bytes) (s : Bytes) : Bytes :=
  s.flatMap fun d => if d = c then by_ else [d]

/-- `strings.Replace(s, string(c), by, 1)` -/
def replaceFirst (c : UInt8) (by_ : Bytes) : Bytes → Bytes
  | [] => []
  | d :: ds => if d = c then by_ ++ ds else d :: replaceFirst c by_ ds

/-- `GetLineAndColPosition`: util.go:7-75. `src[i]` panics when `pos.Position > len(src)`;
`strings.Repeat` panics on a negative count. -/
def getLineAndCol (src : Bytes) (pos : Nat) (tabSize : Int) : Out LineAndCol :=
  if src.length < pos then .panic .index
  else
    let st := lineLoop 0 { prevLineIndex := 0, lineIndex := 0, line := 1, col := 1, nTabs := 0 } (src.take pos)
    let endIndex := pos + restOfLine (src.drop pos)
    let guide : Int := (st.col : Int) - 1 + st.nTabs * (tabSize - 1)
    let guide := if guide < 0 then 0 else guide
    let es := (src.take endIndex).drop st.prevLineIndex
    if tabSize < 0 then .panic (.user "strings: negative Repeat count")
    else
      let es := replaceAll 0x09 (List.replicate tabSize.toNat 0x20) es
      let es :=
        if es.contains 0x0a then b! "   | " ++ replaceFirst 0x0a (b! "\n > | ") es ++ b! "\n"
        else if es.contains 0x0d then b! "   | " ++ replaceFirst 0x0d (b! "\r > | ") es ++ b! "\r"
        else b! " > | " ++ es ++ b! "\n"
      let es := es ++ b! "   | " ++ List.replicate guide.toNat 0x20 ++ b! "^^^^"
      .ok { lineIndex := st.lineIndex, line := st.line, col := st.col, position := pos, errSource := es }

end Takenoco
