import Verif.Spec.Peg
/-
Specification vocabulary for the literals of package extra, on bytes.
-/
namespace Takenoco.Spec

def binDigit (b : UInt8) : Bool := 0x30 ≤ b && b ≤ 0x31
def octDigit (b : UInt8) : Bool := 0x30 ≤ b && b ≤ 0x37
def isDec (b : UInt8) : Bool := 0x30 ≤ b && b ≤ 0x39
def hexDigit (b : UInt8) : Bool := isDec b || (0x41 ≤ b && b ≤ 0x46) || (0x61 ≤ b && b ≤ 0x66)
def isLetter (b : UInt8) : Bool := (0x41 ≤ b && b ≤ 0x5a) || (0x61 ≤ b && b ≤ 0x7a)
/-- `+` or `-` -/
def isSign (b : UInt8) : Bool := b == 0x2b || b == 0x2d
/-- `_` or `$` -/
def isIdSign (b : UInt8) : Bool := b == 0x5f || b == 0x24

/-- A byte of the set, or an underscore. -/
def or_ (B : UInt8 → Bool) (b : UInt8) : Bool := B b || b == 0x5f

/-- The text without underscores. -/
def withoutUnderscores (w : Bytes) : Bytes := w.filter fun b => b != 0x5f

/-- The string starts with a byte of the set. -/
def StartsWith (B : UInt8 → Bool) (s : Bytes) : Prop := ∃ b s', s = b :: s' ∧ B b = true

/-- The longest literal at the start of `s`: digits and underscores, the first one being a digit. -/
def digitRun (D : UInt8 → Bool) (s : Bytes) : Bytes := s.takeWhile (or_ D)

/-- A number without sign: a leading zero stands alone (only underscores may follow). -/
def natRun (s : Bytes) : Bytes :=
  match s with
  | 0x30 :: s' => 0x30 :: s'.takeWhile (· == 0x5f)
  | s => digitRun isDec s

/-- The optional sign at the start of `s`. -/
def signRun (s : Bytes) : Bytes :=
  match s with
  | b :: _ => if isSign b then [b] else []
  | [] => []

/-- From `c` the parser consumes `w`, and pushes one string AST with class name `cls` and value `v`. -/
def Consumes (p : Sem) (c : Ctx) (w : Bytes) (cls : String) (v : Bytes) : Prop :=
  ∃ o a, Outcome.of (p c) = .matched o ∧ o.str = c.str ∧ c.str.drop c.pos = w ++ o.str.drop o.pos ∧ o.pos = c.pos + w.length ∧
    o.stack = c.stack ++ [a] ∧ a.cls = cls ∧ a.ty = .string ∧ a.val = .str v

end Takenoco.Spec

namespace Takenoco.Spec

/-- An ASCII byte between two others. -/
def within (lo hi b : UInt8) : Prop := lo ≤ b ∧ b ≤ hi

instance (lo hi b : UInt8) : Decidable (within lo hi b) := by unfold within; infer_instance

/-- Fraction of a second: the text and its value, padded to nine digits. -/
inductive Fraction : Bytes → Bytes → Prop where
  | absent : Fraction [] (b! ".000000000")
  | digits (ds : Bytes) : 1 ≤ ds.length → ds.length ≤ 9 → (∀ b ∈ ds, isDec b = true) →
      Fraction (0x2e :: ds) (0x2e :: (ds ++ List.replicate (9 - ds.length) 0x30))

/-- Seconds with fraction, both optional. -/
inductive Seconds : Bytes → Bytes → Prop where
  | absent : Seconds [] (b! ":00.000000000")
  | seconds {a b : UInt8} {w v : Bytes} : within 0x30 0x36 a → within 0x30 0x39 b → Fraction w v →
      Seconds (0x3a :: a :: b :: w) (0x3a :: a :: b :: v)

/-- Time of day: `hh:mm`, then seconds. -/
inductive Clock : Bytes → Bytes → Prop where
  | mk {a b c d : UInt8} {w v : Bytes} : within 0x30 0x32 a → within 0x30 0x39 b → within 0x30 0x35 c → within 0x30 0x39 d → Seconds w v →
      Clock (a :: b :: 0x3a :: c :: d :: w) (a :: b :: 0x3a :: c :: d :: v)

/-- Zone: `Z` for `+00:00`, or a sign, hours and minutes. -/
inductive Zone : Bytes → Bytes → Prop where
  | utc : Zone (b! "Z") (b! "+00:00")
  | offset {s a b c d : UInt8} : isSign s = true → within 0x30 0x39 a → within 0x30 0x39 b → within 0x30 0x35 c → within 0x30 0x39 d →
      Zone [s, a, b, 0x3a, c, d] [s, a, b, 0x3a, c, d]

/-- Date: an optional minus, at least four digits of a year, `-mm-dd`. -/
inductive Day : Bytes → Prop where
  | mk {m y : Bytes} {a b c d : UInt8} : m = [] ∨ m = b! "-" → 4 ≤ y.length → (∀ b ∈ y, isDec b = true) →
      within 0x30 0x31 a → within 0x30 0x39 b → within 0x30 0x33 c → within 0x30 0x39 d →
      Day (m ++ y ++ [0x2d, a, b, 0x2d, c, d])

/-- Date and time with a zone. -/
inductive Moment : Bytes → Bytes → Prop where
  | mk {d t z t' z' : Bytes} : Day d → Clock t t' → Zone z z' → Moment (d ++ 0x54 :: t ++ z) (d ++ 0x54 :: t' ++ z')

end Takenoco.Spec
