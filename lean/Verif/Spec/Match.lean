import Verif.Spec.Heap
/-
Specification vocabulary for grammars in which `Match` only replaces ASTs that no saved context is going to need.
-/
namespace Takenoco.Spec

/-- Whenever the grammar matches, with at least `e` ASTs on the stack, it leaves at least `k` ASTs above all but the `e` topmost ones. -/
def LeavesAtLeast (env : Env) (e k : Nat) (g : Gram) : Prop :=
  ∀ n c o, e ≤ c.stack.length → run env n g c = .ok (o, none) → o.status = .matched → c.stack.length + k ≤ o.stack.length + e

mutual
/-- Grammars in which `Match` does no harm. `MatchSafe env d g`: the grammar may replace the `d` topmost ASTs of the stack it is given,
and if it does not match, it has replaced none of them. -/
inductive MatchSafe (env : Env) : Nat → Gram → Prop where
  | prim {d : Nat} {p : Sem} : Appends p → MatchSafe env d (.prim p)
  /-- `Match(n)` replaces the `n` topmost ASTs when a case applies. -/
  | match {d n : Nat} {cases : List ((List Ast → Bool) × List Tr)} : n ≤ d → (∀ c ∈ cases, ∀ t ∈ c.2, MatchSafeTr env t) → MatchSafe env d (.match n cases)
  | flatGroup {d b : Nat} {gs : List Gram} : MatchSeq env d b 0 gs → MatchSafe env d (.flatGroup gs)
  | first {d : Nat} {gs : List Gram} : (∀ g ∈ gs, MatchSafe env d g) → MatchSafe env d (.first gs)
  /-- A loop may replace ASTs that were there before if one round is enough to match, and no round leaves less than there was; the
last does not matter if there is only one. -/
  | loop {d b : Nat} {t : Times} {gs : List Gram} : t.min ≤ 1 → (0 ≤ t.max ∧ t.max ≤ 1) ∨ d ≤ b → MatchSeq env d b 0 gs → MatchSafe env d (.repeat t gs)
  | repeat {d b : Nat} {t : Times} {gs : List Gram} : MatchSeq env 0 b 0 gs → MatchSafe env d (.repeat t gs)
  | group {d b : Nat} {gs : List Gram} : MatchSeq env 0 b 0 gs → MatchSafe env d (.group gs)
  | lookAhead {d b : Nat} {gs : List Gram} : MatchSeq env 0 b 0 gs → MatchSafe env d (.lookAhead gs)
  | lookAheadN {d b : Nat} {gs : List Gram} : MatchSeq env 0 b 0 gs → MatchSafe env d (.lookAheadN gs)
  | lookBehind {d k : Nat} {a b : Int} {gs : List Gram} : MatchSeq env 0 k 0 gs → MatchSafe env d (.lookBehind a b gs)
  | lookBehindN {d k : Nat} {a b : Int} {gs : List Gram} : MatchSeq env 0 k 0 gs → MatchSafe env d (.lookBehindN a b gs)
  | trans {d : Nat} {g : Gram} {trs : List Tr} : MatchSafe env 0 g → (∀ t ∈ trs, MatchSafeTr env t) → MatchSafe env d (.trans g trs)
  | indirect {d name : Nat} : MatchSafe env d (.indirect name)
  | base {d : Nat} {cls : String} {fn : Option ImplFn} {props : List PropItem} {gs : List Gram} {tr : Option (List Tr)} :
      (∀ f, fn = some f → KeepsBelow f) → (∀ g ∈ gs, MatchSafe env 0 g) → (∀ ts, tr = some ts → ∀ t ∈ ts, MatchSafeTr env t) →
      MatchSafe env d (.base cls fn props gs tr)

/-- Sequences: every element may replace what the elements before it have left; only the last one may replace ASTs that were there
before the sequence, and at most `d`. So the sequence has matched when they are replaced. `a`: so many ASTs the elements so far have
added at least. `b`: so many there are in the end at least, above all but the `d` topmost ones before the sequence. -/
inductive MatchSeq (env : Env) : Nat → Nat → Nat → List Gram → Prop where
  | nil {d b a : Nat} : b ≤ a + d → MatchSeq env d b a []
  | last {d b a e k : Nat} {g : Gram} : MatchSafe env e g → e ≤ a + d → (k = 0 ∨ LeavesAtLeast env e k g) → b ≤ a + d - e + k → MatchSeq env d b a [g]
  | cons {d b a e k : Nat} {g : Gram} {gs : List Gram} : MatchSafe env e g → e ≤ a → (k = 0 ∨ LeavesAtLeast env e k g) → MatchSeq env d b (a - e + k) gs →
      MatchSeq env d b a (g :: gs)

/-- The same for transformers. -/
inductive MatchSafeTr (env : Env) : Tr → Prop where
  | fn {t : TSem} : MatchSafeTr env (.fn t)
  | production {precs : List (List Gram × Bool)} {check : Gram} : (∀ p ∈ precs, ∀ g ∈ p.1, MatchSafe env 0 g) → MatchSafe env 0 check →
      MatchSafeTr env (.production precs check)
end

end Takenoco.Spec
