import Verif.Spec.Numeral
import Verif.Spec.Peg
/-
Specification vocabulary: the Gregorian calendar (extended backwards to the year 0), as a count of days, and the
texts that denote days, times of day and zone offsets.
-/
namespace Takenoco.Spec

/-- Leap years of the Gregorian calendar. -/
def leap (y : Nat) : Bool := 4 ∣ y && (!(100 ∣ y : Bool) || 400 ∣ y)

/-- Number of days of a month. -/
def monthLength (y : Nat) : Nat → Nat
  | 2 => if leap y then 29 else 28
  | 4 | 6 | 9 | 11 => 30
  | _ => 31

/-- A day of the calendar. -/
structure Date where
  year : Nat
  month : Nat
  day : Nat
  deriving DecidableEq

/-- There is such a day. -/
def Date.Valid (d : Date) : Prop := 1 ≤ d.month ∧ d.month ≤ 12 ∧ 1 ≤ d.day ∧ d.day ≤ monthLength d.year d.month

/-- The next day. -/
def Date.next (d : Date) : Date :=
  if d.day < monthLength d.year d.month then { d with day := d.day + 1 }
  else if d.month < 12 then ⟨d.year, d.month + 1, 1⟩
  else ⟨d.year + 1, 1, 1⟩

/-- `Elapsed d n`: the day `d` is `n` days after the first day of the year 0. -/
inductive Elapsed : Date → Nat → Prop where
  | first : Elapsed ⟨0, 1, 1⟩ 0
  | next {d : Date} {n : Nat} : Elapsed d n → Elapsed d.next (n + 1)

/-- The day `d` starts (in UTC) `s` seconds after the first of January 1970 (before it, if negative). -/
def Starts (d : Date) (s : Int) : Prop := ∃ n k, Elapsed d n ∧ Elapsed ⟨1970, 1, 1⟩ k ∧ s = ((n : Int) - k) * 86400

/-- A numeral of a given number of decimal digits. -/
def Digits (k : Nat) (w : Bytes) (n : Nat) : Prop := w.length = k ∧ Numeral 10 w n

/-- The text is `yyyy-mm-dd` and denotes the day. -/
def DayText (w : Bytes) (d : Date) : Prop :=
  ∃ y m t, w = y ++ 0x2d :: (m ++ 0x2d :: t) ∧ Digits 4 y d.year ∧ Digits 2 m d.month ∧ Digits 2 t d.day ∧ d.Valid

/-- The text is `hh:mm:ss.fffffffff` and denotes the time of day: seconds since midnight, and nanoseconds. There are
no leap seconds. -/
def ClockText (w : Bytes) (sec nanos : Nat) : Prop :=
  ∃ h m s f H M S, w = h ++ 0x3a :: (m ++ 0x3a :: (s ++ 0x2e :: f)) ∧ Digits 2 h H ∧ Digits 2 m M ∧ Digits 2 s S ∧ Digits 9 f nanos ∧
    H < 24 ∧ M < 60 ∧ S < 60 ∧ sec = H * 3600 + M * 60 + S

/-- The text is `+hh:mm` or `-hh:mm` and denotes the offset of a zone from UTC, in seconds. Newer versions of Go
accept at most 24 hours (and at most 60 minutes); `limit` says whether that applies. -/
def ZoneText (limit : Bool) (w : Bytes) (off : Int) : Prop :=
  ∃ s h m H M, w = s :: (h ++ 0x3a :: m) ∧ Digits 2 h H ∧ Digits 2 m M ∧ (limit = true → H ≤ 24 ∧ M ≤ 60) ∧
    (s = 0x2b ∧ off = ((H * 60 + M) * 60 : Nat) ∨ s = 0x2d ∧ off = -((H * 60 + M) * 60 : Nat))

/-- The text is `yyyy-mm-ddThh:mm:ss.fffffffff+hh:mm` and denotes the instant `unix` seconds and `nanos` nanoseconds
after the first of January 1970, UTC. -/
def MomentText (limit : Bool) (w : Bytes) (unix : Int) (nanos : Nat) : Prop :=
  ∃ d t z day start sec off, w = d ++ 0x54 :: (t ++ z) ∧ DayText d day ∧ Starts day start ∧ ClockText t sec nanos ∧ ZoneText limit z off ∧
    unix = start + sec - off

/-- In context `c` the parser consumes exactly the text `w` and pushes the single AST `a`. -/
def Yields (p : Sem) (c : Ctx) (w : Bytes) (a : Ast) : Prop :=
  ∃ o, Outcome.of (p c) = .matched o ∧ o.str = c.str ∧ c.str.drop c.pos = w ++ o.str.drop o.pos ∧ o.pos = c.pos + w.length ∧
    o.stack = c.stack ++ [a]

end Takenoco.Spec
