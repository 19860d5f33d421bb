import Verif.Spec.Grammar
/-
Specification vocabulary for independence of what a parser does not look at.
-/
namespace Takenoco.Spec

/-- The same source, position, length and status; the second context has the ASTs `below` in addition, below the ASTs of the first.
Class name, quantity and tag do not matter. -/
structure Alike (below : List Ast) (c c' : Ctx) : Prop where
  str : c'.str = c.str
  slice : c'.slice = c.slice
  pos : c'.pos = c.pos
  len : c'.len = c.len
  status : c'.status = c.status
  stack : c'.stack = below ++ c.stack

/-- The same kind of outcome, with related results. -/
inductive OutR {α β : Type} (R : α → β → Prop) : Out α → Out β → Prop where
  | ok {a : α} {b : β} : R a b → OutR R (.ok a) (.ok b)
  | panic {p : Panic} : OutR R (.panic p) (.panic p)
  | timeout : OutR R .timeout .timeout

/-- The same error, or none, and contexts that are alike. -/
def SameRes (below : List Ast) (r r' : PRes) : Prop := r'.2 = r.2 ∧ Alike below r.1 r'.1

/-- A parser that does not look at class name, quantity, tag and `below`, and leaves `below` alone. -/
def Local (below : List Ast) (p : Sem) : Prop := ∀ c c', Alike below c c' → OutR (SameRes below) (p c) (p c')

/-- A callback of this kind. -/
def LocalF (below : List Ast) (f : ImplFn) : Prop := ∀ k b c c', Alike below c c' → OutR (SameRes below) (f k b c) (f k (below.length + b) c')

/-- A transformer of this kind. -/
def LocalT (t : TSem) : Prop := ∀ below c c' asts, Alike below c c' → t c' asts = t c asts

/-- The transformers of the library (/repo/base/transformers.go, /repo/string/transformers.go and /repo/extra/extra.go), except `Prepend` and
`Push`, which remember their last call. -/
inductive LibTr : TSem → Prop where
  | erase : LibTr erase
  | transformError (s : String) : LibTr (transformError s)
  | groupingTransform : LibTr groupingTransform
  | toSlice : LibTr toSlice
  | setOpCodeAndClassName (o : UInt64) (s : String) : LibTr (setOpCodeAndClassName o s)
  | setOpCode (o : UInt64) : LibTr (setOpCode o)
  | changeClassName (s : String) : LibTr (changeClassName s)
  | setValue (ty : AstType) (v : Value) : LibTr (setValue ty v)
  | pop : LibTr pop
  | exchange : LibTr exchange
  | roll (n : Int) : LibTr (roll n)
  | concat : LibTr concat
  | trim : LibTr trim
  | trimStart : LibTr trimStart
  | trimEnd : LibTr trimEnd
  | parseIntRadix (base : Int) : LibTr (parseIntRadix base)
  | parseUintRadix (base : Int) : LibTr (parseUintRadix base)
  | parseFloat (pf : Bytes → NumRes UInt64) : LibTr (parseFloatT pf)
  | runeFromInt : LibTr runeFromInt
  | intFromRune : LibTr intFromRune
  | stringFromInt : LibTr stringFromInt
  | stringFromRune : LibTr stringFromRune
  | padFraction : LibTr Extra.padFraction

mutual
/-- Grammars with terminals satisfying `P`, transformers satisfying `T` and callbacks satisfying `F`, also in the rules of
`ProductionRule`; `M` says whether `Match` is allowed. -/
inductive Uses (P : Sem → Prop) (T : TSem → Prop) (F : ImplFn → Prop) (M : Prop) : Gram → Prop where
  | prim {p : Sem} : P p → Uses P T F M (.prim p)
  | flatGroup {gs : List Gram} : (∀ g ∈ gs, Uses P T F M g) → Uses P T F M (.flatGroup gs)
  | group {gs : List Gram} : (∀ g ∈ gs, Uses P T F M g) → Uses P T F M (.group gs)
  | first {gs : List Gram} : (∀ g ∈ gs, Uses P T F M g) → Uses P T F M (.first gs)
  | lookAhead {gs : List Gram} : (∀ g ∈ gs, Uses P T F M g) → Uses P T F M (.lookAhead gs)
  | lookAheadN {gs : List Gram} : (∀ g ∈ gs, Uses P T F M g) → Uses P T F M (.lookAheadN gs)
  | lookBehind {a b : Int} {gs : List Gram} : (∀ g ∈ gs, Uses P T F M g) → Uses P T F M (.lookBehind a b gs)
  | lookBehindN {a b : Int} {gs : List Gram} : (∀ g ∈ gs, Uses P T F M g) → Uses P T F M (.lookBehindN a b gs)
  | repeat {t : Times} {gs : List Gram} : (∀ g ∈ gs, Uses P T F M g) → Uses P T F M (.repeat t gs)
  | trans {g : Gram} {trs : List Tr} : Uses P T F M g → (∀ t ∈ trs, UsesTr P T F M t) → Uses P T F M (.trans g trs)
  | indirect {name : Nat} : Uses P T F M (.indirect name)
  | match {n : Int} {cases : List ((List Ast → Bool) × List Tr)} : M → (∀ c ∈ cases, ∀ t ∈ c.2, UsesTr P T F M t) → Uses P T F M (.match n cases)
  | base {cls : String} {fn : Option ImplFn} {props : List PropItem} {gs : List Gram} {tr : Option (List Tr)} :
      (∀ f, fn = some f → F f) → (∀ g ∈ gs, Uses P T F M g) → (∀ ts, tr = some ts → ∀ t ∈ ts, UsesTr P T F M t) →
      Uses P T F M (.base cls fn props gs tr)

/-- The same for transformers. -/
inductive UsesTr (P : Sem → Prop) (T : TSem → Prop) (F : ImplFn → Prop) (M : Prop) : Tr → Prop where
  | fn {t : TSem} : T t → UsesTr P T F M (.fn t)
  | production {precs : List (List Gram × Bool)} {check : Gram} : (∀ p ∈ precs, ∀ g ∈ p.1, Uses P T F M g) → Uses P T F M check →
      UsesTr P T F M (.production precs check)
end

end Takenoco.Spec
