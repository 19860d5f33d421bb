import Verif.Spec.Ford
import Verif.Model.ObjParsers
/-
Parsing expression grammars over lists of values, in place of texts, and which grammars built from the object parsers spell which
parsing expression. The engine occurs only in the comparison at the end.
-/
namespace Takenoco.Spec.Items

/-- Parsing expressions over values. The nonterminals are numbered. -/
inductive Peg where
  | eps
  | item (S : Value → Prop)
  | seq (a b : Peg)
  | alt (a b : Peg)
  | star (a : Peg)
  | notP (a : Peg)
  | var (i : Nat)

namespace Peg
/-- The expression that never matches. -/
def fail : Peg := .item fun _ => False
/-- Any value. -/
def any : Peg := .item fun _ => True
/-- So many values, whatever they are. -/
def anys : Nat → Peg
  | 0 => .eps
  | n + 1 => .seq any (anys n)
end Peg

/-- `Ford rules e t r`: on the list `t` the expression `e` fails (`none`) or matches and leaves a rest of `t`. -/
inductive Ford (rules : Nat → Peg) : Peg → List Value → Option (List Value) → Prop where
  | eps {t : List Value} : Ford rules .eps t (some t)
  | item {S : Value → Prop} {w : Value} {t : List Value} : S w → Ford rules (.item S) (w :: t) (some t)
  | itemNot {S : Value → Prop} {w : Value} {t : List Value} : ¬ S w → Ford rules (.item S) (w :: t) none
  | itemEnd {S : Value → Prop} : Ford rules (.item S) [] none
  | seq {a b : Peg} {t u : List Value} {r : Option (List Value)} : Ford rules a t (some u) → Ford rules b u r → Ford rules (.seq a b) t r
  | seqFail {a b : Peg} {t : List Value} : Ford rules a t none → Ford rules (.seq a b) t none
  | altLeft {a b : Peg} {t u : List Value} : Ford rules a t (some u) → Ford rules (.alt a b) t (some u)
  | altRight {a b : Peg} {t : List Value} {r : Option (List Value)} : Ford rules a t none → Ford rules b t r → Ford rules (.alt a b) t r
  | starEnd {a : Peg} {t : List Value} : Ford rules a t none → Ford rules (.star a) t (some t)
  | starMore {a : Peg} {t u : List Value} {r : Option (List Value)} : Ford rules a t (some u) → Ford rules (.star a) u r → Ford rules (.star a) t r
  | notYes {a : Peg} {t : List Value} : Ford rules a t none → Ford rules (.notP a) t (some t)
  | notNo {a : Peg} {t u : List Value} : Ford rules a t (some u) → Ford rules (.notP a) t none
  | var {i : Nat} {t : List Value} {r : Option (List Value)} : Ford rules (rules i) t r → Ford rules (.var i) t r

/-- The values of the source can be compared with `s` without a panic. -/
def Compares (src : SliceSrc) (s : Value) : Prop := ∀ w ∈ src.items, ∃ b, src.itemEquals w s = .ok b

/-- The source says that the value `w` of it equals one of those listed. -/
def OneOf (src : SliceSrc) (oc : List Value) (w : Value) : Prop := ∃ s ∈ oc, src.itemEquals w s = .ok true

/-- `Means src A j e`: over the source `src` the judgement `j` (a grammar, a sequence, a choice, a repetition from its `k`-th iteration
on) spells the parsing expression `e`. `A` is a property of all ASTs involved, on which transformers may rely. -/
inductive Means (src : SliceSrc) (A : Ast → Prop) : Judg → Peg → Prop where
  | any : Means src A (.gram (.prim objAny)) .any
  | «end» : Means src A (.gram (.prim objEnd)) (.notP .any)
  | objClass {oc : List Value} : (∀ s ∈ oc, Compares src s) → Means src A (.gram (.prim (objClass oc))) (.item (OneOf src oc))
  | objClassN {oc : List Value} : (∀ s ∈ oc, Compares src s) → Means src A (.gram (.prim (objClassN oc))) (.item fun w => ¬ OneOf src oc w)
  | objClassFn {fn : Value → Out Bool} : (∀ w ∈ src.items, ∃ b, fn w = .ok b) → Means src A (.gram (.prim (objClassFn fn))) (.item fun w => fn w = .ok true)
  /-- the comparisons have no effect -/
  | objSeq {vs : List Value} : (∀ s ∈ vs, Compares src s) → Means src A (.gram (.prim (objSeq vs))) (.anys vs.length)
  | zero {asts : List Ast} : (∀ a ∈ asts, ∀ p l, A { a with pos := p, len := l }) → Means src A (.gram (.prim (zeroP asts))) .eps
  | unmatched : Means src A (.gram (.prim unmatchedP)) .fail
  | seqNil : Means src A (.seq []) .eps
  | seqCons {g : Gram} {gs : List Gram} {a b : Peg} : Means src A (.gram g) a → Means src A (.seq gs) b → Means src A (.seq (g :: gs)) (.seq a b)
  | choiceOne {g : Gram} {a : Peg} : Means src A (.gram g) a → Means src A (.choice [g]) a
  | choiceCons {g : Gram} {gs : List Gram} {a b : Peg} : gs ≠ [] → Means src A (.gram g) a → Means src A (.choice gs) b →
      Means src A (.choice (g :: gs)) (.alt a b)
  | repsMore {t : Times} {gs : List Gram} {k : Nat} {a b : Peg} : t.max ≠ k → (k : Int) < t.min → Means src A (.seq gs) a →
      Means src A (.reps t gs (k + 1)) b → Means src A (.reps t gs k) (.seq a b)
  | repsMaybe {t : Times} {gs : List Gram} {k : Nat} {a b : Peg} : t.max ≠ k → t.min ≤ k → Means src A (.seq gs) a →
      Means src A (.reps t gs (k + 1)) b → Means src A (.reps t gs k) (.alt (.seq a b) .eps)
  | repsDone {t : Times} {gs : List Gram} {k : Nat} {a : Peg} : t.max = k → t.min ≤ k → Means src A (.seq gs) a → Means src A (.reps t gs k) .eps
  | repsStar {t : Times} {gs : List Gram} {k : Nat} {a : Peg} : t.max < 0 → t.min ≤ k → Means src A (.seq gs) a → Means src A (.reps t gs k) (.star a)
  | flatGroup {gs : List Gram} {e : Peg} : Means src A (.seq gs) e → Means src A (.gram (.flatGroup gs)) e
  | group {gs : List Gram} {e : Peg} : Means src A (.seq gs) e →
      (∀ l, (∀ a ∈ l, A a) → A { Ast.zero with cls := ":base:Group", ty := .listOfAst, val := .list l }) → Means src A (.gram (.group gs)) e
  | first {gs : List Gram} {e : Peg} : gs ≠ [] → Means src A (.choice gs) e → Means src A (.gram (.first gs)) e
  | lookAhead {gs : List Gram} {e : Peg} : Means src A (.seq gs) e → Means src A (.gram (.lookAhead gs)) (.notP (.notP e))
  | lookAheadN {gs : List Gram} {e : Peg} : Means src A (.seq gs) e → Means src A (.gram (.lookAheadN gs)) (.notP e)
  | repeat {t : Times} {gs : List Gram} {e : Peg} : Means src A (.reps t gs 0) e → Means src A (.gram (.repeat t gs)) e
  | trans {g : Gram} {fs : List TSem} {e : Peg} : Means src A (.gram g) e → Succeeds A fs → Means src A (.gram (.trans g (fs.map .fn))) e
  | indirect {i : Nat} : Means src A (.gram (.indirect i)) (.var i)

/-- The context is before the rest `t` of the source. -/
def Before (src : SliceSrc) (c : Ctx) (t : List Value) : Prop :=
  c.slice = some src ∧ c.pos ≤ src.items.length ∧ src.items.drop c.pos = t

/-- From `c`, at the rest `t`, to `c'`, at the rest `v` of that: the position has moved over the values in between, new ASTs have been
pushed. -/
structure Went (src : SliceSrc) (A : Ast → Prop) (c : Ctx) (t : List Value) (c' : Ctx) (v : List Value) : Prop where
  values : ∃ u, t = u ++ v ∧ c'.pos = c.pos + u.length
  before : Before src c' v
  ok : c'.status = .matched
  str : c'.str = c.str
  tag : c'.tag = c.tag
  stack : ∃ new, c'.stack = c.stack ++ new ∧ ∀ a ∈ new, A a

/-- The parser started in `c`, at the rest `t`, ends as the parsing expression does. -/
def Agrees (src : SliceSrc) (A : Ast → Prop) (c : Ctx) (t : List Value) : Outcome → Option (List Value) → Prop
  | .matched c', some v => Went src A c t c' v
  | .unmatched, none => True
  | _, _ => False

/-- The ASTs that the object parsers make of the values of the source satisfy `A`. -/
def Tokens (src : SliceSrc) (A : Ast → Prop) : Prop :=
  (∀ cls ty, ∀ w ∈ src.items, ∀ pos len, A { opCode := 0, cls := cls, ty := ty, val := w, pos := pos, len := len }) ∧
  ∀ l, (∀ w ∈ l, w ∈ src.items) → ∀ pos len, A { opCode := 0, cls := ":object:Seq", ty := .listOfAny, val := .slice l, pos := pos, len := len }

/-- An operand, or an operator before two expressions. `isOp` says which values are operators. -/
inductive Polish (isOp : Value → Prop) : List Value → Prop where
  | operand {w : Value} : ¬ isOp w → Polish isOp [w]
  | operator {w : Value} {l r : List Value} : isOp w → Polish isOp l → Polish isOp r → Polish isOp (w :: (l ++ r))

end Takenoco.Spec.Items
