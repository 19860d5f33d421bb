import Verif.Model.Strconv
/-
Go's standard library `strconv.ParseFloat` with bitSize 64 (external to /repo; used by /repo/string/transformers.go:148), after
src/strconv/atof.go: `special`, `readFloat`, `atof64`.

Simplifications. `readFloat` keeps 19 (hexadecimal: 16) significant digits and remembers whether it dropped some, in which case `atof64`
reads the digits again; here the mantissa has all digits. The three ways to convert (exact floating point arithmetic, the Eisel-Lemire
algorithm, multi-precision decimals) and the conversion of hexadecimal mantissas are one function here, which rounds the exact value to
the nearest float64, ties to even, as the documentation of `ParseFloat` says. What is kept is what the reader makes of the text: in
particular, digits of the exponent are dropped when it has reached 10000.
-/
namespace Takenoco

/-- `lower(c)`: atoi.go. -/
def lowerByte (c : UInt8) : UInt8 := c ||| 0x20

/-- The text without its sign, and whether that was a minus: the beginning of `readFloat`. -/
def takeSign : Bytes → Bool × Bytes
  | [] => (false, [])
  | c :: cs => if c = 0x2b then (false, cs) else if c = 0x2d then (true, cs) else (false, c :: cs)

/-- `special(s)`, for a text that is nothing else: `inf`, `infinity` with optional sign, `nan`, in capital or small letters. (The byte
comparison is that of `commonPrefixLenIgnoreCase`, which changes capital letters only.) -/
def specialFloat (s : Bytes) : Option UInt64 :=
  let low := fun c : UInt8 => if 0x41 ≤ c ∧ c ≤ 0x5a then c + 0x20 else c
  let (neg, t) := takeSign s
  if t.map low = b! "inf" ∨ t.map low = b! "infinity" then some (if neg then 0xfff0000000000000 else 0x7ff0000000000000)
  else if s.map low = b! "nan" then some 0x7ff8000000000001
  else none

/-- The variables of the digit loop of `readFloat`: `mant` is the mantissa, `nd` the number of its digits, `dp` the place of the point
relative to the first of them. -/
structure FloatState where
  underscores : Bool
  sawDot : Bool
  sawDigits : Bool
  nd : Nat
  dp : Int
  mant : Nat

/-- A digit of the mantissa. -/
def mantDigit (hex : Bool) (c : UInt8) : Option Nat :=
  if 0x30 ≤ c ∧ c ≤ 0x39 then some (c.toNat - 0x30)
  else if hex ∧ 0x61 ≤ lowerByte c ∧ lowerByte c ≤ 0x66 then some ((lowerByte c).toNat - 0x61 + 10)
  else none

/-- The digit loop of `readFloat`. -/
def mantLoop (hex : Bool) : FloatState → Bytes → FloatState × Bytes
  | st, [] => (st, [])
  | st, c :: cs =>
    if c = 0x5f then mantLoop hex { st with underscores := true } cs
    else if c = 0x2e then
      if st.sawDot then (st, c :: cs) else mantLoop hex { st with sawDot := true, dp := st.nd } cs
    else
      match mantDigit hex c with
      | none => (st, c :: cs)
      | some d =>
        if c = 0x30 ∧ st.nd = 0 then mantLoop hex { st with sawDigits := true, dp := st.dp - 1 } cs
        else mantLoop hex { st with sawDigits := true, nd := st.nd + 1, mant := st.mant * (if hex then 16 else 10) + d } cs

/-- The loop over the digits of the exponent: the exponent, whether there were underscores, and the rest of the text. -/
def expLoop : Nat → Bool → Bytes → Nat × Bool × Bytes
  | e, u, [] => (e, u, [])
  | e, u, c :: cs =>
    if c = 0x5f then expLoop e true cs
    else if 0x30 ≤ c ∧ c ≤ 0x39 then expLoop (if e < 10000 then e * 10 + (c.toNat - 0x30) else e) u cs
    else (e, u, c :: cs)

/-- The exponent in `readFloat`, if there is one: what is added to the place of the point, whether there were underscores, and the rest
of the text. A hexadecimal number must have one. -/
def readExp (hex : Bool) (s : Bytes) : Option (Int × Bool × Bytes) :=
  match s with
  | c :: cs =>
    if lowerByte c = (if hex then 0x70 else 0x65) then
      let (neg, t) := takeSign cs
      match t with
      | [] => none
      | d :: _ =>
        if 0x30 ≤ d ∧ d ≤ 0x39 then
          let (e, u, r) := expLoop 0 false t
          some (if neg then -(e : Int) else e, u, r)
        else none
    else if hex then none else some (0, false, s)
  | [] => if hex then none else some (0, false, s)

/-- What `readFloat` finds out about a text that it reads to its end: the sign, the mantissa, whether the number is hexadecimal, and the
exponent (of 10; of 2 for a hexadecimal number). -/
structure FloatText where
  neg : Bool
  mant : Nat
  hex : Bool
  exp : Int

/-- The prefix of hexadecimal numbers in `readFloat`: whether there is one, and the rest of the text. -/
def takeHex : Bytes → Bool × Bytes
  | c0 :: c1 :: c2 :: cs => if c0 = 0x30 ∧ lowerByte c1 = 0x78 then (true, c2 :: cs) else (false, c0 :: c1 :: c2 :: cs)
  | t => (false, t)

/-- `readFloat`, for the whole text. -/
def readFloat (s : Bytes) : Option FloatText :=
  let (neg, t) := takeSign s
  let (hex, t') := takeHex t
  let (st, r) := mantLoop hex ⟨false, false, false, 0, 0, 0⟩ t'
  if !st.sawDigits then none
  else
    let dp : Int := if st.sawDot then st.dp else st.nd
    match readExp hex r with
    | none => none
    | some (e, u, r) =>
      if r ≠ [] then none
      else if (st.underscores ∨ u) ∧ !underscoreOK t then none
      else some ⟨neg, st.mant, hex, (if hex then 4 else 1) * (dp - st.nd) + e⟩

/-- The quotient, rounded to the nearest number, ties to even. -/
def divHalfEven (n d : Nat) : Nat :=
  if 2 * (n % d) < d then n / d
  else if d < 2 * (n % d) then n / d + 1
  else if n / d % 2 = 0 then n / d else n / d + 1

/-- The bits of the float64 next to `n / d`; as if there were no largest exponent. -/
def roundFloat (n d : Nat) : Nat :=
  let k := (n * 2 ^ 1074 / d).log2 - 52
  k * 2 ^ 52 + divHalfEven (n * 2 ^ 1074) (d * 2 ^ k)

/-- `strconv.ParseFloat(s, 64)`: the bits of the float64. -/
def parseFloat (s : Bytes) : NumRes UInt64 :=
  match specialFloat s with
  | some b => .ok b
  | none =>
    match readFloat s with
    | none => .error .syntax
    | some f =>
      let base := if f.hex then 2 else 10
      let bits := if 0 ≤ f.exp then roundFloat (f.mant * base ^ f.exp.toNat) 1 else roundFloat f.mant (base ^ (-f.exp).toNat)
      if 2047 * 2 ^ 52 ≤ bits then .error .range
      else .ok (UInt64.ofNat (bits + if f.neg then 2 ^ 63 else 0))

end Takenoco
