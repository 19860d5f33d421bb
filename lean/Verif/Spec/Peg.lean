import Verif.Model.Types
/-
Specification vocabulary for the combinators: what it means for a sequence, an ordered choice and a
repetition of arbitrary parsers to match. Independent of the engine (`baseParser` and its loops).
-/
namespace Takenoco.Spec

/-- How a parser ends, as seen by its caller. -/
inductive Outcome where
  | matched (c : Ctx)
  | unmatched
  /-- an error, or status error without one; the context carries status error -/
  | failed (c : Ctx) (e : Option Err)
  | panicked (p : Panic)
  | timedOut

/-- Reading of what a `ParserFn` returned. A non-nil error always counts as failure. -/
def Outcome.of : Out PRes → Outcome
  | .panic p => .panicked p
  | .timeout => .timedOut
  | .ok (c, some e) => .failed { c with status := .error } (some e)
  | .ok (c, none) =>
    match c.status with
    | .matched => .matched c
    | .unmatched => .unmatched
    | .error => .failed c none

/-- `Seq ps c r`: running the parsers `ps` one after the other from `c`, each in the context returned by
the previous one, ends as `r`; the first one that does not match decides. -/
inductive Seq : List Sem → Ctx → Outcome → Prop where
  | done {c : Ctx} : Seq [] c (.matched c)
  | step {p : Sem} {ps : List Sem} {c c' : Ctx} {r : Outcome} :
      Outcome.of (p c) = .matched c' → Seq ps c' r → Seq (p :: ps) c r
  | stop {p : Sem} {ps : List Sem} {c : Ctx} {r : Outcome} :
      Outcome.of (p c) = r → (∀ c', r ≠ .matched c') → Seq (p :: ps) c r

/-- `Choice ps c r`: the first alternative that is not unmatched decides; every alternative is run from
the same context `c`. -/
inductive Choice : List Sem → Ctx → Outcome → Prop where
  | exhausted {c : Ctx} : Choice [] c .unmatched
  | skip {p : Sem} {ps : List Sem} {c : Ctx} {r : Outcome} :
      Outcome.of (p c) = .unmatched → Choice ps c r → Choice (p :: ps) c r
  | take {p : Sem} {ps : List Sem} {c : Ctx} {r : Outcome} :
      Outcome.of (p c) = r → r ≠ .unmatched → Choice (p :: ps) c r

/-- `Reps ps m k c n c'`: `n` consecutive matches of the sequence `ps` lead from `c` to `c'`. The engine
stores the number `k` of completed iterations as the quantity after each of them. -/
inductive Reps (ps : List Sem) : Nat → Ctx → Nat → Ctx → Prop where
  | zero {k : Nat} {c : Ctx} : Reps ps k c 0 c
  | succ {k n : Nat} {c c1 c' : Ctx} :
      Seq ps c (.matched c1) → Reps ps (k + 1) { c1 with qty := k } n c' → Reps ps k c (n + 1) c'

/-- The context in which the children of a combinator start: the class name is set and the status is
matched. -/
def enter (cls : String) (c : Ctx) : Ctx := { c with cls := cls, status := .matched }

end Takenoco.Spec
