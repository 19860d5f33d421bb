import Verif.Model.Examples.ToRpnHeap
import Verif.Lemmas.Den
import Verif.Spec.Precedence
/-
Vocabulary for lists of ASTs in memory.
-/
namespace Takenoco.Spec
open ToRpnHeap

/-- The AST as seen by a program that looks at it now. -/
def seen (m : Mem) : Item → Ast
  | .plain a => a
  | .list a s => { a with val := .list (m.read s) }

/-- The arrays of the lists. -/
def arrays : List Item → List Nat
  | [] => []
  | .plain _ :: l => arrays l
  | .list _ s :: l => s.arr :: arrays l

/-- The arrays of the lists exist, and no two lists have the same one; and the types of the ASTs say which of them are lists. -/
structure Owned (m : Mem) (l : List Item) : Prop where
  known : ∀ a s, .list a s ∈ l → s.arr < m.next ∧ s.len ≤ s.cap
  apart : (arrays l).Nodup
  lists : ∀ a s, .list a s ∈ l → a.ty = .listOfAst
  plains : ∀ a, .plain a ∈ l → ∀ x, a.val ≠ .list x

/-- Of the arrays that existed, at most those of `A` have changed. -/
def Spares (m m' : Mem) (A : List Nat) : Prop := m.next ≤ m'.next ∧ ∀ a i, a < m.next → a ∉ A → m'.cell a i = m.cell a i

/-- A computation in memory does the work of one with values: it ends in the same way, and with the same ASTs, when they are looked at
afterwards; no two lists in its result have the same array; it has written to no arrays that existed before, except those of `A`; and the
lists in its result are in arrays of `A` or new ones. -/
def SameWork (m : Mem) (A : List Nat) (h : Out ((List Item × Option Err) × Mem)) : Out (List Ast × Option Err) → Prop
  | .panic x => h = .panic x
  | .timeout => h = .timeout
  | .ok (b, e) => ∃ r m', h = .ok ((r, e), m') ∧ r.map (seen m') = b ∧ Owned m' r ∧ Spares m m' A ∧ ∀ a ∈ arrays r, a ∈ A ∨ m.next ≤ a

/-- An expression with its groups, as `expression` reads it (torpn.go:87-133): the numbers and operators, and the expressions in
parentheses. -/
inductive Tree where
  | leaf (a : Ast)
  | group (l : List Tree)

mutual
/-- No number or operator has a list as its value. -/
def Tree.Plain : Tree → Prop
  | .leaf a => ∀ x, a.val ≠ .list x
  | .group l => Tree.Plains l
def Tree.Plains : List Tree → Prop
  | [] => True
  | t :: l => t.Plain ∧ Tree.Plains l
end

mutual
/-- The result for an expression, by values: those of its parts from left to right, then the production rules on what they have
returned. -/
noncomputable def Tree.value (env : Env) (tag : Value) (n : Nat) : Tree → Out (List Ast × Option Err)
  | .leaf a => .ok ([a], none)
  | .group l => do
    match ← Tree.values env tag n l with
    | (_, some e) => return ([], some e)
    | (b, none) =>
      Takenoco.productionLoop (ToRpn.precedences.map fun p => (p.1.map (den env), p.2)) (den env Formula.checkG) tag n b
noncomputable def Tree.values (env : Env) (tag : Value) (n : Nat) : List Tree → Out (List Ast × Option Err)
  | [] => .ok ([], none)
  | t :: l => do
    match ← t.value env tag n with
    | (_, some e) => return ([], some e)
    | (a, none) =>
      match ← Tree.values env tag n l with
      | (_, some e) => return ([], some e)
      | (b, none) => return (a ++ b, none)
end

mutual
/-- The result for an expression, in memory. -/
def Tree.work (w : World) (n : Nat) : Tree → HM (List Item × Option Err)
  | .leaf a => pure ([.plain a], none)
  | .group l => do
    match ← Tree.works w n l with
    | (_, some e) => return ([], some e)
    | (b, none) => ToRpnHeap.productionLoop w n b
def Tree.works (w : World) (n : Nat) : List Tree → HM (List Item × Option Err)
  | [] => pure ([], none)
  | t :: l => do
    match ← t.work w n with
    | (_, some e) => return ([], some e)
    | (a, none) =>
      match ← Tree.works w n l with
      | (_, some e) => return ([], some e)
      | (b, none) => return (a ++ b, none)
end

mutual
/-- The expression is an operator, or an operand with the given postfix form: a number, or a group; precedence and signs are as usual
(`chainValue`). -/
inductive TreeTok : Tree → Tok Rpn → Prop where
  | leaf {a : Ast} {t : Tok Rpn} : (∀ x, a.val ≠ .list x) → RpnTok a t → TreeTok (.leaf a) t
  | group {l : List Tree} {x : Signed Rpn} {rest : List (BinOp × Signed Rpn)} {v : Rpn} : TreeToks l (chainToks x rest) →
      chainValue Rpn.neg (fun op a b => some (Rpn.bin op a b)) x rest = some v → TreeTok (.group l) (.operand v)
inductive TreeToks : List Tree → List (Tok Rpn) → Prop where
  | nil : TreeToks [] []
  | cons {t : Tree} {k : Tok Rpn} {l : List Tree} {ks : List (Tok Rpn)} : TreeTok t k → TreeToks l ks → TreeToks (t :: l) (k :: ks)
end

end Takenoco.Spec
