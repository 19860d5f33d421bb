import Verif.Model.Types
/-
Go's standard library `strconv.ParseUint`, `strconv.ParseInt` with bitSize 64 (external to /repo; used
by /repo/string/transformers.go:81,115 and /repo/_examples/formula/formula.go:39). The model follows
src/strconv/atoi.go. `uint64` accumulation is modelled on naturals: the Go code checks for overflow
before the multiplication (`n >= cutoff`) and after the addition, together the comparison with 2^64
below.
-/
namespace Takenoco

/-- Result of a `strconv` parse: a value, or the kind of error. -/
abbrev NumRes (α : Type) := Except NumErr α

/-- The digit value of a byte: `'0'..'9'`, `'a'..'z'`, `'A'..'Z'` (the `switch` in the digit loop of
`ParseUint`). -/
def digitVal (c : UInt8) : Option Nat :=
  let n := c.toNat
  if 0x30 ≤ n ∧ n ≤ 0x39 then some (n - 0x30)
  else if 0x61 ≤ n ∧ n ≤ 0x7a then some (n - 0x61 + 10)
  else if 0x41 ≤ n ∧ n ≤ 0x5a then some (n - 0x41 + 10)
  else none

/-- The digit loop of `ParseUint`; `base0` says that the base was given as 0, when underscores are
skipped. -/
def parseDigits (base0 : Bool) (base : Nat) : Nat → Bytes → NumRes Nat
  | n, [] => .ok n
  | n, c :: cs =>
    if base0 ∧ c = 0x5f then parseDigits base0 base n cs
    else
      match digitVal c with
      | none => .error .syntax
      | some d =>
        if base ≤ d then .error .syntax
        else if 2 ^ 64 ≤ n * base + d then .error .range
        else parseDigits base0 base (n * base + d) cs

/-- The last character seen by `underscoreOK`. -/
inductive Saw where
  | start | digit | underscore | other
  deriving DecidableEq

/-- The loop of `underscoreOK`. -/
def underscoreLoop (hex : Bool) : Saw → Bytes → Bool
  | saw, [] => saw ≠ .underscore
  | saw, c :: cs =>
    let n := c.toNat
    if (0x30 ≤ n ∧ n ≤ 0x39) ∨ (hex ∧ ((0x61 ≤ n ∧ n ≤ 0x66) ∨ (0x41 ≤ n ∧ n ≤ 0x46))) then
      underscoreLoop hex .digit cs
    else if c = 0x5f then
      if saw ≠ .digit then false else underscoreLoop hex .underscore cs
    else if saw = .underscore then false
    else underscoreLoop hex .other cs

/-- `underscoreOK` on a string without sign. -/
def underscoreOK (s : Bytes) : Bool :=
  match s with
  | c0 :: c1 :: cs =>
    if c0 = 0x30 ∧ (c1 = 0x62 ∨ c1 = 0x42 ∨ c1 = 0x6f ∨ c1 = 0x4f) then underscoreLoop false .digit cs
    else if c0 = 0x30 ∧ (c1 = 0x78 ∨ c1 = 0x58) then underscoreLoop true .digit cs
    else underscoreLoop false .start s
  | _ => underscoreLoop false .start s

/-- The base prefix handling of `ParseUint` with base 0: the base and the remaining digits. -/
def detectBase (s : Bytes) : Nat × Bytes :=
  match s with
  | c0 :: cs =>
    if c0 = 0x30 then
      match cs with
      | c1 :: c2 :: cs' =>
        if c1 = 0x62 ∨ c1 = 0x42 then (2, c2 :: cs')
        else if c1 = 0x6f ∨ c1 = 0x4f then (8, c2 :: cs')
        else if c1 = 0x78 ∨ c1 = 0x58 then (16, c2 :: cs')
        else (8, cs)
      | _ => (8, cs)
    else (10, s)
  | [] => (10, s)

/-- `strconv.ParseUint(s, base, 64)`. -/
def parseUint (s : Bytes) (base : Int) : NumRes Nat :=
  if s = [] then .error .syntax
  else if 2 ≤ base ∧ base ≤ 36 then parseDigits false base.toNat 0 s
  else if base = 0 then
    match parseDigits true (detectBase s).1 0 (detectBase s).2 with
    | .error e => .error e
    | .ok n => if (detectBase s).2.contains 0x5f ∧ !underscoreOK s then .error .syntax else .ok n
  else .error .base

/-- `strconv.ParseInt(s, base, 64)`. -/
def parseInt (s : Bytes) (base : Int) : NumRes Int :=
  match s with
  | [] => .error .syntax
  | c :: cs =>
    let neg := c == 0x2d
    let body := if c = 0x2b ∨ c = 0x2d then cs else s
    match parseUint body base with
    | .error e => .error e
    | .ok un =>
      if !neg ∧ 2 ^ 63 ≤ un then .error .range
      else if neg ∧ 2 ^ 63 < un then .error .range
      else .ok (if neg then -(un : Int) else un)

end Takenoco
