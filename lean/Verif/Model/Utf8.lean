import Verif.Model.Types
/-
The parts of Go's standard library package unicode/utf8 that takenoco uses
(`utf8.DecodeRuneInString`, `utf8.DecodeLastRuneInString`) and the conversion `string(rune)`.
These are external to /repo; the model follows the Go sources (src/unicode/utf8/utf8.go), with the
bit operations written as arithmetic and the table `first`/`acceptRanges` as a case distinction.
Used by /repo/string/parsers.go and /repo/extra/extra.go.
-/
namespace Takenoco

/-- `utf8.RuneError`, U+FFFD. -/
def runeError : Nat := 0xfffd

/-- Number of bytes of a multi-byte sequence with this lead byte and the range of its second byte
(the tables `first` and `acceptRanges` of utf8.go); `none` for bytes that start no multi-byte
sequence (ASCII, continuation bytes, 0xC0, 0xC1, 0xF5..0xFF). -/
def leadInfo (b : Nat) : Option (Nat × Nat × Nat) :=
  if 0xc2 ≤ b ∧ b ≤ 0xdf then some (2, 0x80, 0xbf)
  else if b = 0xe0 then some (3, 0xa0, 0xbf)
  else if 0xe1 ≤ b ∧ b ≤ 0xec then some (3, 0x80, 0xbf)
  else if b = 0xed then some (3, 0x80, 0x9f)
  else if 0xee ≤ b ∧ b ≤ 0xef then some (3, 0x80, 0xbf)
  else if b = 0xf0 then some (4, 0x90, 0xbf)
  else if 0xf1 ≤ b ∧ b ≤ 0xf3 then some (4, 0x80, 0xbf)
  else if b = 0xf4 then some (4, 0x80, 0x8f)
  else none

/-- `locb <= b && b <= hicb` -/
def isCont (b : Nat) : Bool := decide (0x80 ≤ b ∧ b ≤ 0xbf)

/-- `utf8.DecodeRuneInString`: rune and width; `(RuneError, 0)` for the empty string,
`(RuneError, 1)` for an invalid encoding. -/
def decodeRune (s : Bytes) : Nat × Nat :=
  match s with
  | [] => (runeError, 0)
  | b0 :: rest =>
    let c0 := b0.toNat
    if c0 < 0x80 then (c0, 1)
    else
      match leadInfo c0 with
      | none => (runeError, 1)
      | some (sz, lo, hi) =>
        match rest with
        | [] => (runeError, 1)
        | b1 :: rest1 =>
          let c1 := b1.toNat
          if sz = 2 then
            if c1 < lo ∨ hi < c1 then (runeError, 1)
            else (c0 % 32 * 64 + c1 % 64, 2)
          else
            match rest1 with
            | [] => (runeError, 1)
            | b2 :: rest2 =>
              let c2 := b2.toNat
              if sz = 3 then
                if c1 < lo ∨ hi < c1 then (runeError, 1)
                else if !isCont c2 then (runeError, 1)
                else (c0 % 16 * 4096 + c1 % 64 * 64 + c2 % 64, 3)
              else
                match rest2 with
                | [] => (runeError, 1)
                | b3 :: _ =>
                  let c3 := b3.toNat
                  if c1 < lo ∨ hi < c1 then (runeError, 1)
                  else if !isCont c2 then (runeError, 1)
                  else if !isCont c3 then (runeError, 1)
                  else (c0 % 8 * 262144 + c1 % 64 * 4096 + c2 % 64 * 64 + c3 % 64, 4)

/-- A Unicode scalar value: what `string(rune)` encodes as itself (`utf8.ValidRune`). -/
def isScalar (r : Nat) : Prop := r < 0xd800 ∨ (0xe000 ≤ r ∧ r ≤ 0x10ffff)

instance (r : Nat) : Decidable (isScalar r) := by unfold isScalar; infer_instance

/-- `string(r)` for a rune: its UTF-8 encoding, or that of U+FFFD if it is not a scalar value
(`utf8.EncodeRune`). -/
def encodeRune (r : Nat) : Bytes :=
  if r < 0x80 then [r.toUInt8]
  else if r < 0x800 then [(0xc0 + r / 64).toUInt8, (0x80 + r % 64).toUInt8]
  else if isScalar r then
    if r < 0x10000 then
      [(0xe0 + r / 4096).toUInt8, (0x80 + r / 64 % 64).toUInt8, (0x80 + r % 64).toUInt8]
    else
      [(0xf0 + r / 262144).toUInt8, (0x80 + r / 4096 % 64).toUInt8, (0x80 + r / 64 % 64).toUInt8,
        (0x80 + r % 64).toUInt8]
  else [0xef, 0xbf, 0xbd]

/-- `utf8.RuneStart`: not a continuation byte. -/
def runeStart (b : UInt8) : Bool := !isCont b.toNat

/-- The backward search of `utf8.DecodeLastRuneInString`: the `for` loop starting at index
`start - 1`, where the first number is `start` and the second one counts the remaining iterations.
Returns the index at which it stops, 0 if it runs below 0. -/
def lastStart (s : Bytes) : Nat → Nat → Nat
  | 0, _ => 0
  | i + 1, 0 => i + 1 - 1
  | i + 1, k + 1 => if runeStart (s.getD i 0) then i else lastStart s i k

/-- `utf8.DecodeLastRuneInString`. -/
def decodeLastRune (s : Bytes) : Nat × Nat :=
  let n := s.length
  if n = 0 then (runeError, 0)
  else
    let c := (s.getD (n - 1) 0).toNat
    if c < 0x80 then (c, 1)
    else
      let start := lastStart s (n - 1) 3
      let r := decodeRune (s.drop start)
      if start + r.2 ≠ n then (runeError, 1) else r

end Takenoco
