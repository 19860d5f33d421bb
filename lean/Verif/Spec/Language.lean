import Verif.Spec.Ford
/-
The same expressions read as a context-free grammar (choices without order, no look-ahead), and when one character of look-ahead
decides between the alternatives (the LL(1) condition) without left recursion.
-/
namespace Takenoco.Spec

/-- `Lang rules e w`: the expression `e`, as a context-free grammar, generates the word `w`. -/
inductive Lang (rules : Nat → Peg) : Peg → List Char → Prop where
  | eps : Lang rules .eps []
  | chr {S : Char → Prop} {ch : Char} : S ch → Lang rules (.chr S) [ch]
  | seq {a b : Peg} {u v : List Char} : Lang rules a u → Lang rules b v → Lang rules (.seq a b) (u ++ v)
  | left {a b : Peg} {u : List Char} : Lang rules a u → Lang rules (.alt a b) u
  | right {a b : Peg} {u : List Char} : Lang rules b u → Lang rules (.alt a b) u
  | starEnd {a : Peg} : Lang rules (.star a) []
  | starMore {a : Peg} {u v : List Char} : Lang rules a u → Lang rules (.star a) v → Lang rules (.star a) (u ++ v)
  | var {i : Nat} {u : List Char} : Lang rules (rules i) u → Lang rules (.var i) u

/-- The expression generates the empty word. -/
def Nullable (rules : Nat → Peg) (e : Peg) : Prop := Lang rules e []

/-- The first characters of the words of an expression (FIRST). -/
def FirstOf (rules : Nat → Peg) (e : Peg) (ch : Char) : Prop := ∃ w, Lang rules e (ch :: w)

/-- The first characters of an expression followed by one of `F`. -/
def FirstThen (rules : Nat → Peg) (e : Peg) (F : Char → Prop) (ch : Char) : Prop := FirstOf rules e ch ∨ Nullable rules e ∧ F ch

/-- `LL1 rules follow e F`: one character decides how to go on in `e`, if one of `F` or the end comes behind it; `follow i` are the
characters that may come behind the nonterminal `i` (FOLLOW). Look-ahead expressions are not allowed. As alternatives are tried in order,
only the last may be empty. -/
inductive LL1 (rules : Nat → Peg) (follow : Nat → Char → Prop) : Peg → (Char → Prop) → Prop where
  | eps {F : Char → Prop} : LL1 rules follow .eps F
  | chr {S F : Char → Prop} : LL1 rules follow (.chr S) F
  | seq {a b : Peg} {F : Char → Prop} : LL1 rules follow a (FirstThen rules b F) → LL1 rules follow b F → LL1 rules follow (.seq a b) F
  | alt {a b : Peg} {F : Char → Prop} : ¬ Nullable rules a → (∀ ch, FirstOf rules a ch → ¬ FirstThen rules b F ch) → LL1 rules follow a F → LL1 rules follow b F →
      LL1 rules follow (.alt a b) F
  | star {a : Peg} {F : Char → Prop} : ¬ Nullable rules a → (∀ ch, FirstOf rules a ch → ¬ F ch) → LL1 rules follow a (fun ch => FirstOf rules a ch ∨ F ch) →
      LL1 rules follow (.star a) F
  | var {i : Nat} {F : Char → Prop} : (∀ ch, F ch → follow i ch) → LL1 rules follow (.var i) F

/-- `Leftmost rules e i`: the expression `e` may call the nonterminal `i` before it has consumed anything. -/
inductive Leftmost (rules : Nat → Peg) : Peg → Nat → Prop where
  | seqLeft {a b : Peg} {i : Nat} : Leftmost rules a i → Leftmost rules (.seq a b) i
  | seqRight {a b : Peg} {i : Nat} : Nullable rules a → Leftmost rules b i → Leftmost rules (.seq a b) i
  | altLeft {a b : Peg} {i : Nat} : Leftmost rules a i → Leftmost rules (.alt a b) i
  | altRight {a b : Peg} {i : Nat} : Leftmost rules b i → Leftmost rules (.alt a b) i
  | star {a : Peg} {i : Nat} : Leftmost rules a i → Leftmost rules (.star a) i
  | var {i : Nat} : Leftmost rules (.var i) i

/-- No nonterminal comes back to itself, or goes on forever, before something is consumed. -/
def NoLeftRecursion (rules : Nat → Peg) : Prop := WellFounded fun j i => Leftmost rules (rules i) j

end Takenoco.Spec
