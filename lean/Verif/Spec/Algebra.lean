import Verif.Spec.Local
import Verif.Spec.Peg
import Verif.Lemmas.Den
/-
Specification vocabulary for the algebraic laws of the combinators.
-/
namespace Takenoco.Spec

/-- Two ends that cannot be told apart from source, position, length, status and ASTs; class name, quantity and tag do not matter. Of two
failures the error and the position are compared. -/
inductive SameOut : Outcome → Outcome → Prop where
  | matched {c c' : Ctx} : Alike [] c c' → SameOut (.matched c) (.matched c')
  | unmatched : SameOut .unmatched .unmatched
  | failed {c c' : Ctx} {e : Option Err} : c'.pos = c.pos → SameOut (.failed c e) (.failed c' e)
  | panicked {p : Panic} : SameOut (.panicked p) (.panicked p)
  | timedOut : SameOut .timedOut .timedOut

/-- Two grammars that end alike in every context in which a parser can be called. -/
def GramEq (env : Env) (g h : Gram) : Prop :=
  ∀ c : Ctx, c.status = .matched → SameOut (Outcome.of (den env g c)) (Outcome.of (den env h c))

/-- `Within g h k k'`: the grammar `k'` is `k` with one occurrence of `g` replaced by `h`. -/
inductive Within (g h : Gram) : Gram → Gram → Prop where
  | here : Within g h g h
  | flatGroup {pre post : List Gram} {k k' : Gram} : Within g h k k' → Within g h (.flatGroup (pre ++ k :: post)) (.flatGroup (pre ++ k' :: post))
  | group {pre post : List Gram} {k k' : Gram} : Within g h k k' → Within g h (.group (pre ++ k :: post)) (.group (pre ++ k' :: post))
  | first {pre post : List Gram} {k k' : Gram} : Within g h k k' → Within g h (.first (pre ++ k :: post)) (.first (pre ++ k' :: post))
  | lookAhead {pre post : List Gram} {k k' : Gram} : Within g h k k' → Within g h (.lookAhead (pre ++ k :: post)) (.lookAhead (pre ++ k' :: post))
  | lookAheadN {pre post : List Gram} {k k' : Gram} : Within g h k k' → Within g h (.lookAheadN (pre ++ k :: post)) (.lookAheadN (pre ++ k' :: post))
  | lookBehind {a b : Int} {pre post : List Gram} {k k' : Gram} : Within g h k k' →
      Within g h (.lookBehind a b (pre ++ k :: post)) (.lookBehind a b (pre ++ k' :: post))
  | lookBehindN {a b : Int} {pre post : List Gram} {k k' : Gram} : Within g h k k' →
      Within g h (.lookBehindN a b (pre ++ k :: post)) (.lookBehindN a b (pre ++ k' :: post))
  | repeat {t : Times} {pre post : List Gram} {k k' : Gram} : Within g h k k' →
      Within g h (.repeat t (pre ++ k :: post)) (.repeat t (pre ++ k' :: post))
  | trans {ts : List Tr} {k k' : Gram} : Within g h k k' → Within g h (.trans k ts) (.trans k' ts)

/-- One repetition less; no bound below and no bound above stay. -/
def decTimes (t : Times) : Times := ⟨if t.min ≤ 0 then t.min else t.min - 1, if t.max < 0 then t.max else t.max - 1⟩

end Takenoco.Spec
