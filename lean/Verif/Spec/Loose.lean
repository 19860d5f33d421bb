import Verif.Spec.Language
/-
Parsing expressions without their look-aheads, and rules that call each other before anything can stop them.
-/
namespace Takenoco.Spec

/-- The expression without its look-aheads: `!e` and `&e` are taken for the empty word. -/
def Peg.loose : Peg → Peg
  | .eps => .eps
  | .chr S => .chr S
  | .seq a b => .seq a.loose b.loose
  | .alt a b => .alt a.loose b.loose
  | .star a => .star a.loose
  | .notP _ => .eps
  | .var i => .var i

/-- A condition on contexts that speaks of the source and the position only. -/
def SourceOnly (I : Ctx → Prop) : Prop := ∀ c c', c'.str = c.str → c'.slice = c.slice → c'.pos = c.pos → I c → I c'

/-- Started where `I` holds, the grammar always matches, if it ends at all, and `I` holds afterwards. -/
def AlwaysMatches (env : Env) (I : Ctx → Prop) (g : Gram) : Prop :=
  ∀ c r, c.status = .matched → I c → Parses env (.gram g) c r → ∃ o, r = .matched o ∧ I o

/-- Started where `I` holds, the grammar is unmatched, if it ends at all. -/
def NeverMatches (env : Env) (I : Ctx → Prop) (g : Gram) : Prop := ∀ c r, c.status = .matched → I c → Parses env (.gram g) c r → r = .unmatched

/-- `Calls env I S g`: wherever it is started, running `g` gets to a call of a rule in `S`: nothing in front of that call can stop it. -/
inductive Calls (env : Env) (I : Ctx → Prop) (S : Nat → Prop) : Gram → Prop where
  | indirect {i : Nat} : S i → Calls env I S (.indirect i)
  | flatGroup {ps gs : List Gram} {g : Gram} : (∀ p ∈ ps, AlwaysMatches env I p) → Calls env I S g → Calls env I S (.flatGroup (ps ++ g :: gs))
  | group {ps gs : List Gram} {g : Gram} : (∀ p ∈ ps, AlwaysMatches env I p) → Calls env I S g → Calls env I S (.group (ps ++ g :: gs))
  | first {ps gs : List Gram} {g : Gram} : (∀ p ∈ ps, NeverMatches env I p) → Calls env I S g → Calls env I S (.first (ps ++ g :: gs))
  | lookAhead {ps gs : List Gram} {g : Gram} : (∀ p ∈ ps, AlwaysMatches env I p) → Calls env I S g → Calls env I S (.lookAhead (ps ++ g :: gs))
  | lookAheadN {ps gs : List Gram} {g : Gram} : (∀ p ∈ ps, AlwaysMatches env I p) → Calls env I S g → Calls env I S (.lookAheadN (ps ++ g :: gs))
  | repeat {t : Times} {ps gs : List Gram} {g : Gram} : t.max ≠ 0 → (∀ p ∈ ps, AlwaysMatches env I p) → Calls env I S g →
      Calls env I S (.repeat t (ps ++ g :: gs))
  | trans {g : Gram} {ts : List Tr} : Calls env I S g → Calls env I S (.trans g ts)

/-- Every rule of the set calls a rule of the set before anything can stop it. The simplest case is a rule that begins with a call of
itself. -/
def LeftRecursive (env : Env) (I : Ctx → Prop) (S : Nat → Prop) : Prop := ∀ i, S i → Calls env I S (env i)

end Takenoco.Spec
