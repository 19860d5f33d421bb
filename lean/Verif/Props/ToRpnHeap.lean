import Verif.Lemmas.ToRpnHeap
import Verif.Props.Formula
import Verif.Props.Production
/-
C92: the lists that the torpn example builds do not get into each other's way, although `transformUnaryOp` appends to a list that it has not made.
-/
namespace Takenoco
open Spec ToRpnHeap Heap

/-- The production rules of the torpn example, with lists in memory, do what they do with lists as values, whatever the memory contains
and however much `append` allocates; and they write to no arrays but those of the lists they were given and new ones. -/
theorem C92_production (w : World) (env : Env) (c : Ctx) {m : Mem} {l : List Item} (hm : Owned m l) :
    (∀ n, ToRpnHeap.productionLoop w n l m ≠ .timeout →
      SameWork m (arrays l) (ToRpnHeap.productionLoop w n l m) (denTr env ToRpn.formulaProductionRules c (l.map (seen m)))) ∧
    (denTr env ToRpn.formulaProductionRules c (l.map (seen m)) ≠ .timeout → ∃ n, ToRpnHeap.productionLoop w n l m ≠ .timeout) := by
  constructor
  · intro n hn
    have h := production_sim w env c.tag n hm
    rw [ToRpn.formulaProductionRules, denTr_production_of env _ _ c _ n]
    · exact h
    · intro ht
      unfold productionRule at ht
      rw [ht] at h
      exact hn h
  · intro hd
    have : ∃ n, productionRule n (ToRpn.precedences.map fun p => (p.1.map (den env), p.2)) (den env Formula.checkG) c (l.map (seen m)) ≠ .timeout :=
      Classical.byContradiction fun hn => hd (denTr_production_diverges env _ _ c _ fun n => Classical.byContradiction fun h => hn ⟨n, h⟩)
    obtain ⟨n, hn⟩ := this
    refine ⟨n, fun ht => hn ?_⟩
    have h := production_sim w env c.tag n hm
    unfold productionRule
    revert h
    cases Takenoco.productionLoop (ToRpn.precedences.map fun p => (p.1.map (den env), p.2)) (den env Formula.checkG) c.tag n (l.map (seen m)) with
    | panic x => intro h; rw [show _ = _ from h] at ht; cases ht
    | timeout => intro _; rfl
    | ok be =>
      rintro ⟨r, m', h1, _⟩
      rw [h1] at ht
      cases ht

/-- So the list that they build is the postfix form, after the last write to memory. -/
theorem C92_postfix (w : World) {m : Mem} {l : List Item} (hm : Owned m l) (x : Signed Rpn) (rest : List (BinOp × Signed Rpn))
    (h : Toks RpnTok (l.map (seen m)) (chainToks x rest)) :
    ∃ v, chainValue Rpn.neg (fun op a b => some (Rpn.bin op a b)) x rest = some v ∧
      ∃ n y m', ToRpnHeap.productionLoop w n l m = .ok (([y], none), m') ∧ RpnTok (seen m' y) (.operand v) := by
  obtain ⟨v, y, h1, h2, h3⟩ := rpnTr_gives (newStrCtx []) _ x rest h
  obtain ⟨g1, g2⟩ := C92_production w ToRpn.env (newStrCtx []) hm
  obtain ⟨n, hn⟩ := g2 (by rw [h3]; simp)
  have := g1 n hn
  rw [h3] at this
  obtain ⟨r, m', k1, k2, _⟩ := this
  refine ⟨v, h1, n, ?_⟩
  match r, k2 with
  | [z], k2 =>
    refine ⟨z, m', k1, ?_⟩
    simp only [List.map_cons, List.map_nil, List.cons.injEq, and_true] at k2
    rw [k2]
    exact h2

/-- An expression with groups in groups: what the groups have built stays as it is, while the other groups are worked on, until it is
used; and no memory that existed before is written to. -/
theorem C92_groups (w : World) (env : Env) (tag : Value) (n : Nat) (t : Tree) (ht : t.Plain) (m : Mem) :
    SameWork m [] (t.work w n m) (t.value env tag n) := work_sim w env tag n t ht m

private theorem production_large {c : Ctx} {l : List Ast} {y : Ast} (h : denTr ToRpn.env ToRpn.formulaProductionRules c l = .ok ([y], none)) :
    ∃ N, ∀ n, N ≤ n → Takenoco.productionLoop (ToRpn.precedences.map fun p => (p.1.map (den ToRpn.env), p.2)) (den ToRpn.env Formula.checkG) c.tag n l = .ok ([y], none) :=
  productionLoop_of ((C34_grammar ToRpn.env _ _ c l [y]).1.1 h)

mutual
private theorem tree_value {t : Tree} {k : Tok Rpn} : TreeTok t k → t.Plain ∧
    ∃ y N, RpnTok y k ∧ ∀ n, N ≤ n → t.value ToRpn.env .nil n = .ok ([y], none)
  | @TreeTok.leaf a _ h1 h2 => ⟨h1, a, 0, h2, fun _ _ => rfl⟩
  | @TreeTok.group l x rest v h1 h2 => by
    obtain ⟨hp, ys, N, h3, h4⟩ := trees_values h1
    obtain ⟨v', y, h5, h6, h7⟩ := rpnTr_gives (newStrCtx []) ys x rest h3
    rw [h2] at h5
    cases h5
    obtain ⟨M, hM⟩ := production_large h7
    refine ⟨hp, y, max N M, h6, fun n hn => ?_⟩
    simp only [Tree.value, h4 n (by omega), bind, Out.bind]
    exact hM n (by omega)

private theorem trees_values {l : List Tree} {ks : List (Tok Rpn)} : TreeToks l ks → Tree.Plains l ∧
    ∃ ys N, Toks RpnTok ys ks ∧ ∀ n, N ≤ n → Tree.values ToRpn.env .nil n l = .ok (ys, none)
  | .nil => ⟨trivial, [], 0, .nil, fun _ _ => rfl⟩
  | .cons h1 h2 => by
    obtain ⟨p1, y, N, h3, h4⟩ := tree_value h1
    obtain ⟨p2, ys, M, h5, h6⟩ := trees_values h2
    refine ⟨⟨p1, p2⟩, y :: ys, max N M, .cons h3 h5, fun n hn => ?_⟩
    simp only [Tree.values, h4 n (by omega), h6 n (by omega), bind, Out.bind]
    rfl
end

/-- The list built for an expression with groups in groups is its postfix form. -/
theorem C92_expression (w : World) (m : Mem) {t : Tree} {v : Rpn} (h : TreeTok t (.operand v)) :
    ∃ N, ∀ n, N ≤ n → ∃ y m', t.work w n m = .ok (([y], none), m') ∧ RpnTok (seen m' y) (.operand v) := by
  obtain ⟨hp, y, N, h1, h2⟩ := tree_value h
  refine ⟨N, fun n hn => ?_⟩
  have := C92_groups w ToRpn.env .nil n t hp m
  rw [h2 n hn] at this
  obtain ⟨r, m', k1, k2, _⟩ := this
  match r, k2 with
  | [z], k2 =>
    refine ⟨z, m', k1, ?_⟩
    simp only [List.map_cons, List.map_nil, List.cons.injEq, and_true] at k2
    rw [k2]
    exact h1

/-- The rule for the minus sign does write to the array of its operand: used twice for the same operand, with room in the array, it
changes the list that it has built the first time. So it matters that each list is used once. -/
theorem C92_shared (w : World) (m : Mem) (s : Slice) (hs : s.arr < m.next) (hc : s.len < s.cap) (a x y : Ast) (ha : a.ty = .listOfAst) :
    ∃ i m1 i' m2, unaryOp w [.plain x, .list a s] m = .ok (([i], none), m1) ∧ unaryOp w [.plain y, .list a s] m1 = .ok (([i'], none), m2) ∧
      (seen m1 i).val = .list (m.read s ++ [x]) ∧ (seen m2 i).val = .list (m.read s ++ [y]) := by
  obtain ⟨s1, m1, h1, h2, h3, h4, h5⟩ := append_spec w hs (Nat.le_of_lt hc) [x]
  obtain ⟨s2, m2, k1, k2, k3, k4, k5⟩ := append_spec w (m := m1) (s := s) (by have := h3.1; omega) (Nat.le_of_lt hc) [y]
  have e1 : s1 = { s with len := s.len + 1 } := by
    unfold append at h1
    rw [if_pos (by simp only [List.length_singleton]; omega)] at h1
    cases h1; rfl
  have e2 : s2 = { s with len := s.len + 1 } := by
    unfold append at k1
    rw [if_pos (by simp only [List.length_singleton]; omega)] at k1
    cases k1; rfl
  have hr : m1.read s = m.read s := h3.read hs (fun _ => Nat.le_refl _)
  refine ⟨.list { Ast.zero with ty := .listOfAst, cls := "List" } s1, m1, .list { Ast.zero with ty := .listOfAst, cls := "List" } s2, m2, ?_, ?_, ?_, ?_⟩
  · simp only [unaryOp, goGet, List.getElem?_cons_succ, List.getElem?_cons_zero, lift, bind, HM.bind, Item.head, ha, Item.asSlice, h1]
    rfl
  · simp only [unaryOp, goGet, List.getElem?_cons_succ, List.getElem?_cons_zero, lift, bind, HM.bind, Item.head, ha, Item.asSlice, k1]
    rfl
  · simp only [seen, h2]
  · simp only [seen, e1, ← e2, k2, hr]

/-! ### Concrete cases -/

private def exactWorld : World := ⟨fun _ _ _ => 1, fun _ _ _ => none, fun _ _ _ _ h => nomatch h⟩
private def num (v : Int64) : Ast := { Ast.zero with ty := .int, cls := "Number", val := .int v }
private def op (cls : String) (s : Bytes) : Ast := { Ast.zero with cls := cls, ty := .string, val := .str s }

/-- `-((1+2)*3)+-(4-5)`: the list of the first group has room for the minus sign. -/
private def tree : Tree := .group [.leaf (op "UnaryOperator" (b! "-")), .group [.group [.leaf (num 1), .leaf (op "BinaryOperator" (b! "+")), .leaf (num 2)],
  .leaf (op "BinaryOperator" (b! "*")), .leaf (num 3)], .leaf (op "BinaryOperator" (b! "+")),
  .leaf (op "UnaryOperator" (b! "-")), .group [.leaf (num 4), .leaf (op "BinaryOperator" (b! "-")), .leaf (num 5)]]

example : tree.Plain := by simp [tree, Tree.Plain, Tree.Plains, num, op]

example : TreeTok tree (.operand (.list [.int 1, .int 2, .str (b! "+"), .int 3, .str (b! "*"), .str (b! "-"), .int 4, .int 5,
    .str (b! "-"), .str (b! "-"), .str (b! "+")])) := by
  have n : ∀ v, TreeTok (.leaf (num v)) (.operand (.int v)) := fun v => .leaf (by simp [num]) ⟨rfl, rfl, rfl⟩
  have u : TreeTok (.leaf (op "UnaryOperator" (b! "-"))) .neg := .leaf (by simp [op]) ⟨rfl, rfl⟩
  have b : ∀ o : BinOp, TreeTok (.leaf (op "BinaryOperator" [o.char])) (.bin o) := fun o => .leaf (by simp [op]) ⟨rfl, rfl⟩
  have g1 : TreeTok (.group [.leaf (num 1), .leaf (op "BinaryOperator" (b! "+")), .leaf (num 2)]) (.operand (.list [.int 1, .int 2, .str (b! "+")])) :=
    .group (x := (0, .int 1)) (rest := [(.add, 0, .int 2)]) (.cons (n 1) (.cons (b .add) (.cons (n 2) .nil))) rfl
  have g2 := TreeTok.group (x := (0, _)) (rest := [(.mul, 0, .int 3)]) (.cons g1 (.cons (b .mul) (.cons (n 3) .nil))) rfl
  have g3 : TreeTok (.group [.leaf (num 4), .leaf (op "BinaryOperator" (b! "-")), .leaf (num 5)]) (.operand (.list [.int 4, .int 5, .str (b! "-")])) :=
    .group (x := (0, .int 4)) (rest := [(.sub, 0, .int 5)]) (.cons (n 4) (.cons (b .sub) (.cons (n 5) .nil))) rfl
  exact .group (x := (1, _)) (rest := [(.add, 1, _)]) (.cons u (.cons g2 (.cons (b .add) (.cons u (.cons g3 .nil))))) rfl

private def built (r : Out ((List Item × Option Err) × Mem)) : List Value :=
  match r with
  | .ok (([.list _ s], none), m) => (m.read s).map (·.val)
  | _ => []

example : built (tree.work exactWorld 9 ⟨0, fun _ _ => default⟩) = [.int 1, .int 2, .str (b! "+"), .int 3, .str (b! "*"), .str (b! "-"), .int 4, .int 5,
    .str (b! "-"), .str (b! "-"), .str (b! "+")] := by cbv

/-- Two lists in different arrays, with room behind them. -/
example : Owned ⟨2, fun _ _ => num 7⟩ [.list { Ast.zero with ty := .listOfAst } ⟨0, 0, 1, 4⟩, .plain (op "BinaryOperator" (b! "+")),
    .list { Ast.zero with ty := .listOfAst } ⟨1, 0, 2, 4⟩] := by
  refine ⟨?_, by simp [arrays], ?_, ?_⟩
  · intro a s h
    simp only [List.mem_cons, Item.list.injEq, List.not_mem_nil, or_false, reduceCtorEq, false_or] at h
    rcases h with ⟨_, rfl⟩ | ⟨_, rfl⟩ <;> decide
  · intro a s h
    simp only [List.mem_cons, Item.list.injEq, List.not_mem_nil, or_false, reduceCtorEq, false_or] at h
    rcases h with ⟨rfl, _⟩ | ⟨rfl, _⟩ <;> rfl
  · intro a h
    simp only [List.mem_cons, List.not_mem_nil, or_false, reduceCtorEq, false_or, Item.plain.injEq] at h
    subst h
    simp [op]

/-- A list with room behind it, as `C92_shared` wants it. -/
example : (⟨0, 0, 1, 4⟩ : Slice).arr < (⟨1, fun _ _ => num 7⟩ : Mem).next ∧ (⟨0, 0, 1, 4⟩ : Slice).len < (⟨0, 0, 1, 4⟩ : Slice).cap := by decide

#print axioms C92_production
#print axioms C92_postfix
#print axioms C92_groups
#print axioms C92_expression
#print axioms C92_shared

end Takenoco
