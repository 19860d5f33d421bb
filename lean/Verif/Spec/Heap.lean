import Verif.Model.Heap
/-
Specification vocabulary for shared memory.
-/
namespace Takenoco.Spec

/-- A parser without sub-parsers that only pushes: everything on the stack stays there, and the source is kept. -/
def Appends (p : Sem) : Prop := ∀ c o e, p c = .ok (o, e) → o.slice = c.slice ∧ c.stack <+: o.stack

/-- A callback of `BaseParser` that keeps the source and what is below `bottomOfAst`; if it says that a round does not match, it has
only pushed. -/
def KeepsBelow (f : ImplFn) : Prop := ∀ k b c o e, f k b c = .ok (o, e) → b ≤ c.stack.length →
  o.slice = c.slice ∧ c.stack.take b <+: o.stack ∧ (0 ≤ k → e = none → o.status = .unmatched → c.stack <+: o.stack)

mutual
/-- Grammars without `Match`, whose terminals only push and whose callbacks keep what is below `bottomOfAst`. -/
inductive MatchFree : Gram → Prop where
  | prim {p : Sem} : Appends p → MatchFree (.prim p)
  | flatGroup {gs : List Gram} : (∀ g ∈ gs, MatchFree g) → MatchFree (.flatGroup gs)
  | group {gs : List Gram} : (∀ g ∈ gs, MatchFree g) → MatchFree (.group gs)
  | first {gs : List Gram} : (∀ g ∈ gs, MatchFree g) → MatchFree (.first gs)
  | lookAhead {gs : List Gram} : (∀ g ∈ gs, MatchFree g) → MatchFree (.lookAhead gs)
  | lookAheadN {gs : List Gram} : (∀ g ∈ gs, MatchFree g) → MatchFree (.lookAheadN gs)
  | lookBehind {a b : Int} {gs : List Gram} : (∀ g ∈ gs, MatchFree g) → MatchFree (.lookBehind a b gs)
  | lookBehindN {a b : Int} {gs : List Gram} : (∀ g ∈ gs, MatchFree g) → MatchFree (.lookBehindN a b gs)
  | repeat {t : Times} {gs : List Gram} : (∀ g ∈ gs, MatchFree g) → MatchFree (.repeat t gs)
  | trans {g : Gram} {trs : List Tr} : MatchFree g → (∀ t ∈ trs, MatchFreeTr t) → MatchFree (.trans g trs)
  | indirect {name : Nat} : MatchFree (.indirect name)
  | base {cls : String} {fn : Option ImplFn} {props : List PropItem} {gs : List Gram} {tr : Option (List Tr)} :
      (∀ f, fn = some f → KeepsBelow f) → (∀ g ∈ gs, MatchFree g) → (∀ ts, tr = some ts → ∀ t ∈ ts, MatchFreeTr t) →
      MatchFree (.base cls fn props gs tr)

/-- The same for transformers. -/
inductive MatchFreeTr : Tr → Prop where
  | fn {t : TSem} : MatchFreeTr (.fn t)
  | production {precs : List (List Gram × Bool)} {check : Gram} : (∀ p ∈ precs, ∀ g ∈ p.1, MatchFree g) → MatchFree check →
      MatchFreeTr (.production precs check)
end

/-- A context that can be used with this memory: its slices are windows on arrays that exist, and the source is not in the array of
the stack. -/
structure Usable (m : Mem) (c : HCtx) : Prop where
  arr : c.stack.arr < m.next
  cap : c.stack.len ≤ c.stack.cap
  src : ∀ s, c.slice = some (.asts s) → s.arr < m.next ∧ s.arr ≠ c.stack.arr

/-- The memory a context refers to is not changed by pushing on `s`: the stack is in another array, or below the top of `s`; and so is
the source. -/
def Below (s : Slice) (d : HCtx) : Prop :=
  (d.stack.arr = s.arr → d.stack.off + d.stack.len ≤ s.off + s.len) ∧
  ∀ t, d.slice = some (.asts t) → t.arr = s.arr → t.off + t.len ≤ s.off + s.len

/-- What is seen of the outcome of a parser. -/
def observe : Out (HRes × Mem) → Out PRes
  | .ok ((o, e), m) => .ok (o.view m, e)
  | .panic p => .panic p
  | .timeout => .timeout

end Takenoco.Spec
