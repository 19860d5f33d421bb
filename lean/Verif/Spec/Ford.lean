import Verif.Spec.BigStep
import Verif.Spec.Text
import Verif.Model.StrParsers
/-
Parsing expression grammars (B. Ford, "Parsing expression grammars: a recognition-based syntactic foundation", 2004): their
syntax, their meaning over texts, and which grammars built with takenoco spell which parsing expression. Nothing here knows
of contexts, stacks, bytes or fuel, except for the comparison at the end.
-/
namespace Takenoco.Spec

/-- Parsing expressions. The nonterminals are numbered. -/
inductive Peg where
  | eps
  | chr (S : Char → Prop)
  | seq (a b : Peg)
  | alt (a b : Peg)
  | star (a : Peg)
  | notP (a : Peg)
  | var (i : Nat)

namespace Peg
/-- The expression that never matches. -/
def fail : Peg := .chr fun _ => False
/-- Any character. -/
def any : Peg := .chr fun _ => True
/-- One text. -/
def lit : List Char → Peg
  | [] => .eps
  | ch :: l => .seq (.chr (· = ch)) (lit l)
end Peg

/-- `Ford rules e t r`: on the text `t` the expression `e` fails (`none`) or matches and leaves a rest of `t`. -/
inductive Ford (rules : Nat → Peg) : Peg → List Char → Option (List Char) → Prop where
  | eps {t : List Char} : Ford rules .eps t (some t)
  | chr {S : Char → Prop} {ch : Char} {t : List Char} : S ch → Ford rules (.chr S) (ch :: t) (some t)
  | chrNot {S : Char → Prop} {ch : Char} {t : List Char} : ¬ S ch → Ford rules (.chr S) (ch :: t) none
  | chrEnd {S : Char → Prop} : Ford rules (.chr S) [] none
  | seq {a b : Peg} {t u : List Char} {r : Option (List Char)} : Ford rules a t (some u) → Ford rules b u r → Ford rules (.seq a b) t r
  | seqFail {a b : Peg} {t : List Char} : Ford rules a t none → Ford rules (.seq a b) t none
  | altLeft {a b : Peg} {t u : List Char} : Ford rules a t (some u) → Ford rules (.alt a b) t (some u)
  | altRight {a b : Peg} {t : List Char} {r : Option (List Char)} : Ford rules a t none → Ford rules b t r → Ford rules (.alt a b) t r
  | starEnd {a : Peg} {t : List Char} : Ford rules a t none → Ford rules (.star a) t (some t)
  | starMore {a : Peg} {t u : List Char} {r : Option (List Char)} : Ford rules a t (some u) → Ford rules (.star a) u r → Ford rules (.star a) t r
  | notYes {a : Peg} {t : List Char} : Ford rules a t none → Ford rules (.notP a) t (some t)
  | notNo {a : Peg} {t u : List Char} : Ford rules a t (some u) → Ford rules (.notP a) t none
  | var {i : Nat} {t : List Char} {r : Option (List Char)} : Ford rules (rules i) t r → Ford rules (.var i) t r

/-- The transformers succeed on ASTs satisfying `A` and yield such ASTs. -/
def Succeeds (A : Ast → Prop) (fs : List TSem) : Prop :=
  ∀ ctx l, (∀ a ∈ l, A a) → ∃ l', Pipe ctx fs l (.ok l') ∧ ∀ a ∈ l', A a

/-- `Means A j e`: the judgement `j` (a grammar, a sequence, a choice, a repetition from its `k`-th iteration on) spells the parsing
expression `e`. `A` is a property of all ASTs involved, on which transformers may rely. -/
inductive Means (A : Ast → Prop) : Judg → Peg → Prop where
  | chr {p : Sem} {cls : String} {S : Char → Prop} : CharTerminal p cls S → Means A (.gram (.prim p)) (.chr S)
  | lit {l : List Char} : '�' ∉ l → Means A (.gram (.prim (seqS (utf8s l)))) (.lit l)
  | zero {asts : List Ast} : (∀ a ∈ asts, ∀ p l, A { a with pos := p, len := l }) → Means A (.gram (.prim (zeroP asts))) .eps
  | unmatched : Means A (.gram (.prim unmatchedP)) .fail
  | «end» : Means A (.gram (.prim endS)) (.notP .any)
  | seqNil : Means A (.seq []) .eps
  | seqCons {g : Gram} {gs : List Gram} {a b : Peg} : Means A (.gram g) a → Means A (.seq gs) b → Means A (.seq (g :: gs)) (.seq a b)
  | choiceOne {g : Gram} {a : Peg} : Means A (.gram g) a → Means A (.choice [g]) a
  | choiceCons {g : Gram} {gs : List Gram} {a b : Peg} : gs ≠ [] → Means A (.gram g) a → Means A (.choice gs) b →
      Means A (.choice (g :: gs)) (.alt a b)
  | repsMore {t : Times} {gs : List Gram} {k : Nat} {a b : Peg} : t.max ≠ k → (k : Int) < t.min → Means A (.seq gs) a →
      Means A (.reps t gs (k + 1)) b → Means A (.reps t gs k) (.seq a b)
  | repsMaybe {t : Times} {gs : List Gram} {k : Nat} {a b : Peg} : t.max ≠ k → t.min ≤ k → Means A (.seq gs) a →
      Means A (.reps t gs (k + 1)) b → Means A (.reps t gs k) (.alt (.seq a b) .eps)
  | repsDone {t : Times} {gs : List Gram} {k : Nat} {a : Peg} : t.max = k → t.min ≤ k → Means A (.seq gs) a → Means A (.reps t gs k) .eps
  | repsStar {t : Times} {gs : List Gram} {k : Nat} {a : Peg} : t.max < 0 → t.min ≤ k → Means A (.seq gs) a → Means A (.reps t gs k) (.star a)
  | flatGroup {gs : List Gram} {e : Peg} : Means A (.seq gs) e → Means A (.gram (.flatGroup gs)) e
  | group {gs : List Gram} {e : Peg} : Means A (.seq gs) e →
      (∀ l, (∀ a ∈ l, A a) → A { Ast.zero with cls := ":base:Group", ty := .listOfAst, val := .list l }) → Means A (.gram (.group gs)) e
  | first {gs : List Gram} {e : Peg} : gs ≠ [] → Means A (.choice gs) e → Means A (.gram (.first gs)) e
  | lookAhead {gs : List Gram} {e : Peg} : Means A (.seq gs) e → Means A (.gram (.lookAhead gs)) (.notP (.notP e))
  | lookAheadN {gs : List Gram} {e : Peg} : Means A (.seq gs) e → Means A (.gram (.lookAheadN gs)) (.notP e)
  | repeat {t : Times} {gs : List Gram} {e : Peg} : Means A (.reps t gs 0) e → Means A (.gram (.repeat t gs)) e
  | trans {g : Gram} {fs : List TSem} {e : Peg} : Means A (.gram g) e → Succeeds A fs → Means A (.gram (.trans g (fs.map .fn))) e
  | indirect {i : Nat} : Means A (.gram (.indirect i)) (.var i)

/-- `ReadOff s u r`: the byte string `s` begins with the characters `u`; the bytes `r` are left. -/
inductive ReadOff : Bytes → List Char → Bytes → Prop where
  | nil {s : Bytes} : ReadOff s [] s
  | cons {s r : Bytes} {ch : Char} {n : Nat} {u : List Char} : NextChar s ch n → ReadOff (s.drop n) u r → ReadOff s (ch :: u) r

/-- The source from the position on. -/
def ahead (c : Ctx) : Bytes := c.str.drop c.pos

/-- From `c`, at the text `t`, to `c'`, at its rest `v`: the position has moved over the characters in between, new ASTs have been pushed. -/
structure Went (A : Ast → Prop) (c : Ctx) (t : List Char) (c' : Ctx) (v : List Char) : Prop where
  chars : ∃ u, t = u ++ v ∧ ReadOff (ahead c) u (ahead c')
  inside : c'.pos ≤ c'.str.length
  ok : c'.status = .matched
  str : c'.str = c.str
  slice : c'.slice = c.slice
  tag : c'.tag = c.tag
  stack : ∃ new, c'.stack = c.stack ++ new ∧ ∀ a ∈ new, A a

/-- The parser started in `c`, at the text `t`, ends as the parsing expression does. -/
def Agrees (A : Ast → Prop) (c : Ctx) (t : List Char) : Outcome → Option (List Char) → Prop
  | .matched c', some v => Went A c t c' v
  | .unmatched, none => True
  | _, _ => False

end Takenoco.Spec
