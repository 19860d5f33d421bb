import Verif.Spec.Peg
/-
Specification vocabulary for text: characters of a byte string in terms of Lean's own UTF-8 encoder
(`String.utf8EncodeChar`), independent of the model's decoder, and what consuming a token means.
-/
namespace Takenoco.Spec

/-- The UTF-8 encoding of a character. -/
abbrev utf8 (ch : Char) : Bytes := String.utf8EncodeChar ch

/-- The UTF-8 encoding of a text. -/
def utf8s (t : List Char) : Bytes := t.flatMap utf8

/-- `NextChar s ch n`: the first character of the byte string `s` is `ch` and takes `n` bytes. A byte that
starts no well-formed character counts as U+FFFD of one byte. -/
inductive NextChar : Bytes → Char → Nat → Prop where
  | char (ch : Char) (rest : Bytes) : NextChar (utf8 ch ++ rest) ch (utf8 ch).length
  | bad {s : Bytes} : s ≠ [] → (∀ ch rest, s ≠ utf8 ch ++ rest) → NextChar s '�' 1

/-- The context after consuming `n` bytes as a token with class name `cls` and value `v`: one string AST
is pushed. It carries the position where the token starts and the length the context had before. -/
def advance (cls : String) (v : Bytes) (n : Nat) (c : Ctx) : Ctx :=
  { c with
    pos := c.pos + n
    len := n
    qty := 1
    status := .matched
    cls := cls
    stack := c.stack ++ [{ opCode := 0, cls := cls, ty := .string, val := .str v, pos := c.pos, len := c.len }] }

/-- The context of a terminal that does not match: position and stack stay. -/
def refuse (cls : String) (c : Ctx) : Ctx := { c with status := .unmatched, cls := cls }

/-- `p` is the terminal for one character out of the set `S`: it consumes the next character if that is in
`S` and is unmatched otherwise, in particular at the end of the source. -/
def CharTerminal (p : Sem) (cls : String) (S : Char → Prop) : Prop :=
  ∀ c : Ctx, c.pos ≤ c.str.length →
    (∀ ch n, NextChar (c.str.drop c.pos) ch n → S ch → p c = .ok (advance cls (utf8 ch) n c, none)) ∧
    (∀ ch n, NextChar (c.str.drop c.pos) ch n → ¬ S ch →
      p c = .ok (refuse cls c, none)) ∧
    (c.pos = c.str.length → p c = .ok (refuse cls c, none))

/-- The code of a character is between two numbers. -/
def between (lo hi : Nat) (ch : Char) : Prop := lo ≤ ch.toNat ∧ ch.toNat ≤ hi

instance (lo hi : Nat) (ch : Char) : Decidable (between lo hi ch) := by unfold between; infer_instance

/-- Between the texts `t` and `u` there is a word boundary: exactly one of the characters next to it is a
word character; outside of the text there is none. -/
def Boundary (W : Char → Prop) (t u : List Char) : Prop :=
  ¬ ((∃ ch, t.getLast? = some ch ∧ W ch) ↔ (∃ ch, u.head? = some ch ∧ W ch))

/-- Two characters are equal up to case: `orbit` is the simple case folding of non-ASCII characters. -/
def SameFold (orbit : Nat → Nat → Bool) (a b : Char) : Prop :=
  a = b ∨ (a.toNat < 0x80 ∧ b.toNat < 0x80 ∧ a.toLower = b.toLower) ∨
    ((0x80 ≤ a.toNat ∨ 0x80 ≤ b.toNat) ∧ orbit (min a.toNat b.toNat) (max a.toNat b.toNat) = true)

/-- Two byte strings are equal up to case, character by character. -/
inductive FoldEq (orbit : Nat → Nat → Bool) : Bytes → Bytes → Prop where
  | nil : FoldEq orbit [] []
  | cons {s t : Bytes} {a b : Char} {n m : Nat} : NextChar s a n → NextChar t b m → SameFold orbit a b →
      FoldEq orbit (s.drop n) (t.drop m) → FoldEq orbit s t

/-- `Reads s t`: the byte string `s` reads as the text `t`, malformed bytes counting as U+FFFD. -/
inductive Reads : Bytes → List Char → Prop where
  | nil : Reads [] []
  | cons {s : Bytes} {ch : Char} {n : Nat} {t : List Char} : NextChar s ch n → Reads (s.drop n) t → Reads s (ch :: t)

end Takenoco.Spec
