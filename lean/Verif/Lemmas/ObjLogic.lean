import Verif.Lemmas.Precedence
import Verif.Lemmas.Logic
import Verif.Spec.Objects
import Verif.Model.Examples.ToRpn
/-
The rules of the formula and torpn examples, as parsers of lists of ASTs.
-/
namespace Takenoco
open Spec

/-- The context is before index `p` of the list of ASTs. -/
structure AtO (c : Ctx) (l : List Ast) (p : Nat) : Prop where
  slice : c.slice = some (astSliceSrc l)
  pos : c.pos = p
  ok : c.status = .matched

/-- The parser consumes `n` ASTs and pushes `new`. -/
def OHits (q : Sem) (l : List Ast) (p n : Nat) (new : List Ast) : Prop :=
  ∀ c, AtO c l p → ∃ c', Outcome.of (q c) = .matched c' ∧ AtO c' l (p + n) ∧ c'.stack = c.stack ++ new
def OMisses (q : Sem) (l : List Ast) (p : Nat) : Prop := ∀ c, AtO c l p → Outcome.of (q c) = .unmatched
def OPanics (q : Sem) (l : List Ast) (p : Nat) (x : Panic) : Prop := ∀ c, AtO c l p → Outcome.of (q c) = .panicked x
def OFails (q : Sem) (l : List Ast) (p : Nat) (e : Err) : Prop := ∀ c, AtO c l p → ∃ c', Outcome.of (q c) = .failed c' (some e)

def OSeqHits (qs : List Sem) (l : List Ast) (p n : Nat) (new : List Ast) : Prop :=
  ∀ c, AtO c l p → ∃ c', Seq qs c (.matched c') ∧ AtO c' l (p + n) ∧ c'.stack = c.stack ++ new
def OSeqMisses (qs : List Sem) (l : List Ast) (p : Nat) : Prop := ∀ c, AtO c l p → Seq qs c .unmatched

theorem OSeqHits.nil (l : List Ast) (p : Nat) : OSeqHits [] l p 0 [] := fun c hc => ⟨c, .done, hc, by simp⟩

theorem OSeqHits.cons {q : Sem} {qs : List Sem} {l : List Ast} {p n m : Nat} {a b : List Ast} (h1 : OHits q l p n a)
    (h2 : OSeqHits qs l (p + n) m b) : OSeqHits (q :: qs) l p (n + m) (a ++ b) := fun c hc => by
  obtain ⟨c1, e1, r1, s1⟩ := h1 c hc
  obtain ⟨c2, e2, r2, s2⟩ := h2 c1 r1
  exact ⟨c2, .step e1 e2, by rw [← Nat.add_assoc]; exact r2, by rw [s2, s1, List.append_assoc]⟩

theorem OSeqMisses.head {q : Sem} {qs : List Sem} {l : List Ast} {p : Nat} (h : OMisses q l p) : OSeqMisses (q :: qs) l p :=
  fun c hc => .stop (h c hc) (fun _ h => by cases h)

theorem OSeqMisses.tail {q : Sem} {qs : List Sem} {l : List Ast} {p n : Nat} {a : List Ast} (h1 : OHits q l p n a)
    (h2 : OSeqMisses qs l (p + n)) : OSeqMisses (q :: qs) l p := fun c hc =>
  let ⟨c1, e1, r1, _⟩ := h1 c hc
  .step e1 (h2 c1 r1)

section
variable {env : Env} {l : List Ast} {p n : Nat} {a b : List Ast}

theorem oflat_hits {gs : List Gram} (h : OSeqHits (gs.map (den env)) l p n a) : OHits (den env (.flatGroup gs)) l p n a := fun c hc => by
  obtain ⟨c', h1, h2, h3⟩ := h (enter ":base:FlatGroup" c) ⟨hc.slice, hc.pos, rfl⟩
  refine ⟨{ c' with qty := 1 }, ?_, ⟨h2.slice, h2.pos, h2.ok⟩, h3⟩
  rw [den_flatGroup, flatGroup_of h1]; rfl

theorem oflat_misses {gs : List Gram} (h : OSeqMisses (gs.map (den env)) l p) : OMisses (den env (.flatGroup gs)) l p := fun c hc => by
  rw [den_flatGroup, flatGroup_of (h (enter ":base:FlatGroup" c) ⟨hc.slice, hc.pos, rfl⟩)]; rfl

theorem otrans_hits {g : Gram} {f : TSem} (h : OHits (den env g) l p n a) (hf : ∀ c, f c a = .ok (b, none)) :
    OHits (den env (.trans g [.fn f])) l p n b := fun c hc => by
  obtain ⟨c', h1, h2, h3⟩ := h (enter ":base:Trans" c) ⟨hc.slice, hc.pos, rfl⟩
  rw [den_trans, trans_matched_eq h1]
  have h3 : c'.stack = c.stack ++ a := h3
  simp only [List.map_cons, List.map_nil, denTr_fn, variadic, List.isEmpty_cons, Bool.false_eq_true, if_false, applyTransforms]
  rw [if_neg (by rw [h3]; simp)]
  simp only [h3, List.drop_left, List.take_left, applyTrs, hf]
  exact ⟨{ c' with qty := 1, stack := c.stack ++ b }, by simp [Outcome.of, h2.ok], ⟨h2.slice, h2.pos, h2.ok⟩, rfl⟩

theorem otrans_panics {g : Gram} {f : TSem} {x : Panic} (h : OHits (den env g) l p n a) (hf : ∀ c, f c a = .panic x) :
    OPanics (den env (.trans g [.fn f])) l p x := fun c hc => by
  obtain ⟨c', h1, h2, h3⟩ := h (enter ":base:Trans" c) ⟨hc.slice, hc.pos, rfl⟩
  rw [den_trans, trans_matched_eq h1]
  have h3 : c'.stack = c.stack ++ a := h3
  simp only [List.map_cons, List.map_nil, denTr_fn, variadic, List.isEmpty_cons, Bool.false_eq_true, if_false, applyTransforms]
  rw [if_neg (by rw [h3]; simp)]
  simp only [h3, List.drop_left, applyTrs, hf]
  rfl

theorem otrans_misses {g : Gram} {ts : List Tr} (h : OMisses (den env g) l p) : OMisses (den env (.trans g ts)) l p := fun c hc => by
  rw [den_trans]
  exact trans_stop_of (h (enter ":base:Trans" c) ⟨hc.slice, hc.pos, rfl⟩) (fun _ h => by cases h)

theorem ounwrap_hits {q : Sem} {a : Ast} (h : ∀ c, AtO c l p → ∃ c' t, Outcome.of (q c) = .matched c' ∧ AtO c' l (p + 1) ∧
    c'.stack = c.stack ++ [t] ∧ t.val = .ast a) :
    OHits (den env (.trans (.prim q) [.fn Formula.unwrapOperandItem])) l p 1 [a] := fun c hc => by
  obtain ⟨c', t, h1, h2, h3, h4⟩ := h (enter ":base:Trans" c) ⟨hc.slice, hc.pos, rfl⟩
  rw [den_trans, den_prim, trans_matched_eq h1]
  have h3 : c'.stack = c.stack ++ [t] := h3
  simp only [List.map_cons, List.map_nil, denTr_fn, variadic, List.isEmpty_cons, Bool.false_eq_true, if_false, applyTransforms]
  rw [if_neg (by rw [h3]; simp)]
  simp only [h3, List.drop_left, List.take_left, applyTrs, Formula.unwrapOperandItem, h4]
  exact ⟨{ c' with qty := 1, stack := c.stack ++ [a] }, by simp [Outcome.of, h2.ok], ⟨h2.slice, h2.pos, h2.ok⟩, rfl⟩

theorem items_get (l : List Ast) (p : Nat) : (astSliceSrc l).items[p]? = l[p]?.map .ast := by simp [astSliceSrc]

theorem anyOperand_hits {a : Ast} (h : l[p]? = some a) : OHits (den env Formula.anyOperand) l p 1 [a] := by
  refine ounwrap_hits fun c hc => ?_
  obtain ⟨str, slice, pos, len, qty, stack, status, cls, tag⟩ := c
  obtain ⟨h1, h2, h3⟩ := hc
  cases h1; cases h2; cases h3
  have hi := items_get l pos
  rw [h] at hi
  refine ⟨objAdvance ":object:Any" .any (.ast a) 1 ⟨str, _, pos, len, qty, stack, _, cls, tag⟩, ⟨0, ":object:Any", .any, .ast a, pos, len⟩,
    ?_, ⟨rfl, rfl, rfl⟩, rfl, rfl⟩
  rw [objAny, lightParser]
  simp only [withSlice, hi, Option.map_some]
  rfl

theorem anyOperand_misses (h : l[p]? = none) : OMisses (den env Formula.anyOperand) l p := by
  refine otrans_misses fun c hc => ?_
  obtain ⟨str, slice, pos, len, qty, stack, status, cls, tag⟩ := c
  obtain ⟨h1, h2, h3⟩ := hc
  cases h1; cases h2; cases h3
  have hi := items_get l pos
  rw [h] at hi
  rw [den_prim, objAny, lightParser]
  simp only [withSlice, hi, Option.map_none]
  rfl

theorem isOperator_hits {a : Ast} {cls : String} {ops : List Bytes} {v : Bytes} (h : l[p]? = some a) (hc : a.cls = cls)
    (hv : a.val = .str v) (ho : v ∈ ops) : OHits (den env (Formula.isOperator cls ops)) l p 1 [a] := by
  refine ounwrap_hits fun c hc => ?_
  obtain ⟨str, slice, pos, len, qty, stack, status, cls', tag⟩ := c
  obtain ⟨h1, h2, h3⟩ := hc
  cases h1; cases h2; cases h3
  have hi := items_get l pos
  rw [h] at hi
  have hm : Formula.makeOpMatcher cls ops (.ast a) = .ok true := by
    simp [Formula.makeOpMatcher, hc, hv, asStr, ho]
  refine ⟨objAdvance ":object:ObjClassFn" .any (.ast a) 1 ⟨str, _, pos, len, qty, stack, _, cls', tag⟩,
    ⟨0, ":object:ObjClassFn", .any, .ast a, pos, len⟩, ?_, ⟨rfl, rfl, rfl⟩, rfl, rfl⟩
  rw [objClassFn, lightParser]
  simp only [withSlice, hi, Option.map_some, hm]
  rfl

/-- The AST is not one of the operators (and if it has their class name, it carries a string). -/
def NotOp (cls : String) (ops : List Bytes) (a : Ast) : Prop := a.cls ≠ cls ∨ ∃ v, a.val = .str v ∧ v ∉ ops

theorem isOperator_misses {cls : String} {ops : List Bytes} (h : ∀ a, l[p]? = some a → NotOp cls ops a) :
    OMisses (den env (Formula.isOperator cls ops)) l p := by
  refine otrans_misses fun c hc => ?_
  obtain ⟨str, slice, pos, len, qty, stack, status, cls', tag⟩ := c
  obtain ⟨h1, h2, h3⟩ := hc
  cases h1; cases h2; cases h3
  have hi := items_get l pos
  rw [den_prim, objClassFn, lightParser]
  cases hp : l[pos]? with
  | none =>
    rw [hp] at hi
    simp only [withSlice, hi, Option.map_none]
    rfl
  | some a =>
    rw [hp] at hi
    have hm : Formula.makeOpMatcher cls ops (.ast a) = .ok false := by
      rcases h a hp with h | ⟨v, hv, ho⟩
      · simp [Formula.makeOpMatcher, h]
      · by_cases hc : a.cls = cls
        · simp [Formula.makeOpMatcher, hc, hv, asStr]
          exact fun x hx he => ho (he ▸ hx)
        · simp [Formula.makeOpMatcher, hc]
    simp only [withSlice, hi, Option.map_some, hm]
    rfl

/-! ### Rules -/

theorem inapplicable_of_misses {q : Sem} {tag : Value} (h : OMisses q l p) : Inapplicable [q] tag l p := by
  intro r hr
  cases List.mem_singleton.1 hr
  have := h (overAsts tag l p) ⟨rfl, rfl, rfl⟩
  cases hq : q (overAsts tag l p) with
  | panic x => rw [hq] at this; cases this
  | timeout => rw [hq] at this; cases this
  | ok oe =>
    obtain ⟨o, e⟩ := oe
    rw [hq] at this
    cases e with
    | some e => cases this
    | none =>
      refine ⟨o, rfl, fun hs => ?_⟩
      simp [Outcome.of, hs] at this

theorem applies_of_hits {q : Sem} {tag : Value} {y : Ast} (h : OHits q l p n [y]) :
    ∃ o, q (overAsts tag l p) = .ok (o, none) ∧ o.status = .matched ∧ o.pos = p + n ∧ o.stack = [y] := by
  obtain ⟨c', h1, h2, h3⟩ := h (overAsts tag l p) ⟨rfl, rfl, rfl⟩
  cases hq : q (overAsts tag l p) with
  | panic x => rw [hq] at h1; cases h1
  | timeout => rw [hq] at h1; cases h1
  | ok oe =>
    obtain ⟨o, e⟩ := oe
    rw [hq] at h1
    cases e with
    | some e => cases h1
    | none =>
      have ho : o = c' := by
        simp only [Outcome.of] at h1
        cases hs : o.status <;> rw [hs] at h1 <;> cases h1
        rfl
      subst ho
      exact ⟨o, rfl, h2.ok, h2.pos, h3⟩

theorem panics_of_panics {q : Sem} {tag : Value} {x : Panic} (h : OPanics q l p x) : q (overAsts tag l p) = .panic x := by
  have := h (overAsts tag l p) ⟨rfl, rfl, rfl⟩
  cases hq : q (overAsts tag l p) with
  | panic y => rw [hq] at this; cases this; rfl
  | timeout => rw [hq] at this; cases this
  | ok oe =>
    obtain ⟨o, e⟩ := oe
    rw [hq] at this
    cases e with
    | some e => cases this
    | none =>
      simp only [Outcome.of] at this
      cases hs : o.status <;> rw [hs] at this <;> cases this

/-- A unary rule: `-` and an operand. -/
def unaryRuleOf (f : TSem) : Gram :=
  .trans (.flatGroup [Formula.isOperator "UnaryOperator" [b! "-"], Formula.anyOperand]) [.fn f]
/-- A binary rule: two operands and an operator between them. -/
def binaryRuleOf (ops : List Bytes) (f : TSem) : Gram :=
  .trans (.flatGroup [Formula.anyOperand, Formula.isOperator "BinaryOperator" ops, Formula.anyOperand]) [.fn f]

theorem unaryRule_inner {o a : Ast} (h1 : l[p]? = some o) (hc : o.cls = "UnaryOperator") (hv : o.val = .str (b! "-"))
    (h2 : l[p + 1]? = some a) :
    OHits (den env (.flatGroup [Formula.isOperator "UnaryOperator" [b! "-"], Formula.anyOperand])) l p 2 [o, a] :=
  oflat_hits (.cons (n := 1) (m := 1) (a := [o]) (b := [a]) (isOperator_hits h1 hc hv (by simp)) (.cons (n := 1) (m := 0) (a := [a]) (b := []) (anyOperand_hits h2) (.nil l (p + 1 + 1))))

theorem unaryRule_misses {f : TSem} (h : ∀ a, l[p]? = some a → NotOp "UnaryOperator" [b! "-"] a) :
    OMisses (den env (unaryRuleOf f)) l p :=
  otrans_misses (oflat_misses (.head (isOperator_misses h)))

theorem binaryRule_inner {ops : List Bytes} {a o b : Ast} {v : Bytes} (h1 : l[p]? = some a) (h2 : l[p + 1]? = some o)
    (hc : o.cls = "BinaryOperator") (hv : o.val = .str v) (ho : v ∈ ops) (h3 : l[p + 2]? = some b) :
    OHits (den env (.flatGroup [Formula.anyOperand, Formula.isOperator "BinaryOperator" ops, Formula.anyOperand])) l p 3 [a, o, b] :=
  oflat_hits (.cons (n := 1) (m := 2) (a := [a]) (b := [o, b]) (anyOperand_hits h1) (.cons (n := 1) (m := 1) (a := [o]) (b := [b]) (isOperator_hits h2 hc hv ho)
    (.cons (n := 1) (m := 0) (a := [b]) (b := []) (anyOperand_hits h3) (.nil l (p + 1 + 1 + 1)))))

theorem binaryRule_misses {ops : List Bytes} {f : TSem} (h : ∀ a, l[p + 1]? = some a → NotOp "BinaryOperator" ops a) :
    OMisses (den env (binaryRuleOf ops f)) l p := by
  refine otrans_misses (oflat_misses ?_)
  cases hp : l[p]? with
  | none => exact .head (anyOperand_misses hp)
  | some a => exact .tail (anyOperand_hits hp) (.head (isOperator_misses h))

/-! ### The check -/

/-- The parser consumes `n` ASTs. -/
def OMoves (q : Sem) (l : List Ast) (p n : Nat) : Prop := ∀ c, AtO c l p → ∃ c', Outcome.of (q c) = .matched c' ∧ AtO c' l (p + n)

theorem startP_moves (l : List Ast) : OMoves startP l 0 0 := fun c hc => by
  obtain ⟨str, slice, pos, len, qty, stack, status, cls, tag⟩ := c
  obtain ⟨h1, h2, h3⟩ := hc
  cases h1; cases h2; cases h3
  exact ⟨_, rfl, ⟨rfl, rfl, rfl⟩⟩

theorem objAny_moves (h : p < l.length) : OMoves objAny l p 1 := fun c hc => by
  obtain ⟨str, slice, pos, len, qty, stack, status, cls, tag⟩ := c
  obtain ⟨h1, h2, h3⟩ := hc
  cases h1; cases h2; cases h3
  have hi := items_get l pos
  rw [List.getElem?_eq_getElem h] at hi
  refine ⟨objAdvance ":object:Any" .any (.ast l[pos]) 1 ⟨str, _, pos, len, qty, stack, _, cls, tag⟩, ?_, ⟨rfl, rfl, rfl⟩⟩
  rw [objAny, lightParser]
  simp only [withSlice, hi, Option.map_some]
  rfl

theorem objAny_misses (h : l.length ≤ p) : OMisses objAny l p := fun c hc => by
  obtain ⟨str, slice, pos, len, qty, stack, status, cls, tag⟩ := c
  obtain ⟨h1, h2, h3⟩ := hc
  cases h1; cases h2; cases h3
  have hi := items_get l pos
  rw [List.getElem?_eq_none h] at hi
  rw [objAny, lightParser]
  simp only [withSlice, hi, Option.map_none]
  rfl

theorem objEnd_moves (h : p = l.length) : OMoves objEnd l p 0 := fun c hc => by
  obtain ⟨str, slice, pos, len, qty, stack, status, cls, tag⟩ := c
  obtain ⟨h1, h2, h3⟩ := hc
  cases h1; cases h2; cases h3
  have hl : pos = (astSliceSrc l).items.length := by simpa [astSliceSrc] using h
  refine ⟨⟨str, some (astSliceSrc l), pos, 0, 1, stack, .matched, ":object:End", tag⟩, ?_, ⟨rfl, rfl, rfl⟩⟩
  rw [objEnd, lightParser]
  simp only [withSlice, if_pos hl]
  rfl

theorem objEnd_misses (h : p ≠ l.length) : OMisses objEnd l p := fun c hc => by
  obtain ⟨str, slice, pos, len, qty, stack, status, cls, tag⟩ := c
  obtain ⟨h1, h2, h3⟩ := hc
  cases h1; cases h2; cases h3
  have hl : pos ≠ (astSliceSrc l).items.length := by simpa [astSliceSrc] using h
  rw [objEnd, lightParser]
  simp only [withSlice, if_neg hl]
  rfl

theorem checkG_accepts {tag : Value} (h : l.length = 1) : Accepts (den env Formula.checkG) tag l := by
  have hc : AtO (enter ":base:FlatGroup" (overAsts tag l 0)) l 0 := ⟨rfl, rfl, rfl⟩
  obtain ⟨c1, e1, a1⟩ := startP_moves l _ hc
  obtain ⟨c2, e2, a2⟩ := objAny_moves (p := 0) (by omega) _ a1
  obtain ⟨c3, e3, a3⟩ := objEnd_moves (l := l) (p := 1) (by omega) _ a2
  have hs : Seq ([startP, objAny, objEnd]) (enter ":base:FlatGroup" (overAsts tag l 0)) (.matched c3) := .step e1 (.step e2 (.step e3 .done))
  have : den env Formula.checkG = flatGroup [startP, objAny, objEnd] := by
    simp [Formula.checkG, den_flatGroup, den_prim]
  refine ⟨{ c3 with qty := 1 }, ?_, a3.ok⟩
  rw [this, flatGroup_eq hs]
  rfl

theorem checkG_declines {tag : Value} (h : l.length ≠ 1) : Declines (den env Formula.checkG) tag l := by
  have hc : AtO (enter ":base:FlatGroup" (overAsts tag l 0)) l 0 := ⟨rfl, rfl, rfl⟩
  obtain ⟨c1, e1, a1⟩ := startP_moves l _ hc
  have hs : Seq ([startP, objAny, objEnd]) (enter ":base:FlatGroup" (overAsts tag l 0)) .unmatched := by
    by_cases hl : 0 < l.length
    · obtain ⟨c2, e2, a2⟩ := objAny_moves (p := 0) hl _ a1
      exact .step e1 (.step e2 (.stop (objEnd_misses (l := l) (p := 1) (by omega) _ a2) (fun _ h => by cases h)))
    · exact .step e1 (.stop (objAny_misses (p := 0) (by omega) _ a1) (fun _ h => by cases h))
  have : den env Formula.checkG = flatGroup [startP, objAny, objEnd] := by
    simp [Formula.checkG, den_flatGroup, den_prim]
  have ho : Outcome.of (den env Formula.checkG (overAsts tag l 0)) = .unmatched := by rw [this, flatGroup_of hs]; rfl
  cases hq : den env Formula.checkG (overAsts tag l 0) with
  | panic x => rw [hq] at ho; cases ho
  | timeout => rw [hq] at ho; cases ho
  | ok oe =>
    obtain ⟨o, e⟩ := oe
    rw [hq] at ho
    refine ⟨o, e, hq, fun ⟨he, hs⟩ => ?_⟩
    subst he
    simp [Outcome.of, hs] at ho

end
end Takenoco
