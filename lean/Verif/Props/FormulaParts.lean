import Verif.Lemmas.FormulaParts
/-
C110: the values of formulas that are put together from formulas.
-/
namespace Takenoco
open Spec

/-- **C110.** White space before and behind a formula does not change its value. -/
theorem C110_blanks {n : Nat} {s b b' : Bytes} {v : Int64} (h : Formula.parse n s = .ok (.value v)) (hb : Blanks b) (hb' : Blanks b') :
    ∃ N, ∀ m, N ≤ m → Formula.parse m (b ++ s ++ b') = .ok (.value v) := by
  obtain ⟨e, h1, h2⟩ := (C64_value s v).1 ⟨n, h⟩
  exact (formula_accepted (spelled_blanks h1 hb hb')).1 v h2

/-- **C110.** Nor do brackets around it. -/
theorem C110_brackets {n : Nat} {s : Bytes} {v : Int64} (h : Formula.parse n s = .ok (.value v)) :
    ∃ N, ∀ m, N ≤ m → Formula.parse m (b! "(" ++ s ++ b! ")") = .ok (.value v) := by
  obtain ⟨e, h1, h2⟩ := (C64_value s v).1 ⟨n, h⟩
  exact (formula_accepted (spelled_of (.product (.unary (.atom (spelled_brackets h1 false)))))).1 v h2

/-- **C110.** A minus sign before the brackets negates, with wrap-around. -/
theorem C110_minus {n : Nat} {s : Bytes} {v : Int64} (h : Formula.parse n s = .ok (.value v)) :
    ∃ N, ∀ m, N ≤ m → Formula.parse m (b! "-(" ++ s ++ b! ")") = .ok (.value (-v)) := by
  obtain ⟨e, h1, h2⟩ := (C64_value s v).1 ⟨n, h⟩
  exact (formula_accepted (spelled_of (.product (.unary (.neg blanks_nil (.atom (spelled_brackets h1 false))))))).1 _ (value_neg h2)

section
variable {n k : Nat} {s t : Bytes} {v w : Int64} (hs : Formula.parse n s = .ok (.value v)) (ht : Formula.parse k t = .ok (.value w))
include hs ht

/-- **C110.** An operator between two formulas in brackets: the operation of `int64` on the two values, with wrap-around. -/
theorem C110_op :
    (∃ N, ∀ m, N ≤ m → Formula.parse m (b! "(" ++ s ++ b! ")+(" ++ t ++ b! ")") = .ok (.value (v + w))) ∧
    (∃ N, ∀ m, N ≤ m → Formula.parse m (b! "(" ++ s ++ b! ")-(" ++ t ++ b! ")") = .ok (.value (v - w))) ∧
    (∃ N, ∀ m, N ≤ m → Formula.parse m (b! "(" ++ s ++ b! ")*(" ++ t ++ b! ")") = .ok (.value (v * w))) ∧
    (w ≠ 0 → ∃ N, ∀ m, N ≤ m → Formula.parse m (b! "(" ++ s ++ b! ")/(" ++ t ++ b! ")") = .ok (.value (v / w))) ∧
    (w = 0 → ∃ N, ∀ m, N ≤ m → Formula.parse m (b! "(" ++ s ++ b! ")/(" ++ t ++ b! ")") = .panic .divZero) := by
  obtain ⟨x, h1, h2⟩ := (C64_value s v).1 ⟨n, hs⟩
  obtain ⟨y, h3, h4⟩ := (C64_value t w).1 ⟨k, ht⟩
  have key : ∀ op : BinOp, Spelled (b! "(" ++ s ++ [0x29, op.char, 0x28] ++ t ++ b! ")") (.bin op x y) := by
    intro op
    have := spelled_op h1 h3 op
    rw [show b! "(" ++ s ++ [0x29, op.char, 0x28] ++ t ++ b! ")" = 0x28 :: (s ++ 0x29 :: op.char :: 0x28 :: (t ++ [0x29])) by
      rw [show b! "(" = [0x28] from rfl, show b! ")" = [0x29] from rfl]; simp]
    exact this
  refine ⟨(formula_accepted (key .add)).1 _ ?_, (formula_accepted (key .sub)).1 _ ?_, (formula_accepted (key .mul)).1 _ ?_,
    fun hw => (formula_accepted (key .div)).1 _ ?_, fun hw => (formula_accepted (key .div)).2 ?_⟩ <;> rw [value_binOp h2 h4] <;> simp only [int64Op]
  · rw [int64_add_eq]
  · rw [int64_sub_eq]
  · rw [int64_mul_eq]
  · rw [if_neg hw, int64_div_eq]
  · rw [if_pos hw]

/-- **C110.** A plus sign between two formulas adds their values without any brackets, whatever the formulas are. -/
theorem C110_add : ∃ N, ∀ m, N ≤ m → Formula.parse m (s ++ b! "+" ++ t) = .ok (.value (v + w)) := by
  obtain ⟨x, ⟨b, s', q, rfl, h1, h2⟩, h3⟩ := (C64_value s v).1 ⟨n, hs⟩
  obtain ⟨y, ⟨b', t', r, rfl, h4, h5⟩, h6⟩ := (C64_value t w).1 ⟨k, ht⟩
  obtain ⟨z, h7, h8⟩ := spells_sum h5 rfl rfl h2 h4 h3 h6
  refine (formula_accepted ⟨b, s' ++ 0x2b :: (b' ++ t'), r, ?_, h1, h7⟩).1 _ h8
  rw [show b! "+" = [0x2b] from rfl]
  simp

/-- **C110.** A minus sign subtracts if the second formula is in brackets; the first need not be. -/
theorem C110_sub : ∃ N, ∀ m, N ≤ m → Formula.parse m (s ++ b! "-(" ++ t ++ b! ")") = .ok (.value (v - w)) := by
  obtain ⟨x, ⟨b, s', q, rfl, h1, h2⟩, h3⟩ := (C64_value s v).1 ⟨n, hs⟩
  obtain ⟨y, h4, h6⟩ := (C64_value t w).1 ⟨k, ht⟩
  have h5 := Spells.add (op := .sub) rfl h2 blanks_nil (.unary (.atom (spelled_brackets h4 q)))
  refine (formula_accepted ⟨b, _, _, ?_, h1, h5⟩).1 _ (by rw [value_binOp h3 h6]; simp only [int64Op, int64_sub_eq])
  rw [show b! "-(" = [0x2d, 0x28] from rfl, show b! ")" = [0x29] from rfl]
  simp [BinOp.char]

end

/-- **C110.** `torpn.Parse` puts the items of the two formulas one behind the other, then the operator. -/
theorem C110_torpn {n k : Nat} {s t : Bytes} {l l' : List Value} (hs : ToRpn.parse n s = .ok (.value l)) (ht : ToRpn.parse k t = .ok (.value l')) (op : UInt8)
    (ho : op ∈ b! "+-*/") : ∃ N, ∀ m, N ≤ m → ToRpn.parse m (b! "(" ++ s ++ b! ")" ++ [op] ++ b! "(" ++ t ++ b! ")") = .ok (.value (l ++ l' ++ [.str [op]])) := by
  obtain ⟨x, h1, rfl⟩ := (C65_value s l).1 ⟨n, hs⟩
  obtain ⟨y, h3, rfl⟩ := (C65_value t l').1 ⟨k, ht⟩
  have hop : ∃ o : BinOp, o.char = op := by
    have : op ∈ ([0x2b, 0x2d, 0x2a, 0x2f] : Bytes) := ho
    simp only [List.mem_cons, List.not_mem_nil, or_false] at this
    rcases this with rfl | rfl | rfl | rfl
    · exact ⟨.add, rfl⟩
    · exact ⟨.sub, rfl⟩
    · exact ⟨.mul, rfl⟩
    · exact ⟨.div, rfl⟩
  obtain ⟨o, rfl⟩ := hop
  have := torpn_accepted (spelled_op h1 h3 o)
  rw [show b! "(" ++ s ++ b! ")" ++ [o.char] ++ b! "(" ++ t ++ b! ")" = 0x28 :: (s ++ 0x29 :: o.char :: 0x28 :: (t ++ [0x29])) by
      rw [show b! "(" = [0x28] from rfl, show b! ")" = [0x29] from rfl]; simp]
  exact this

/-! ### Examples -/

/-- `1-2` and `3-4`: added without brackets. -/
example : Formula.parse 99 (b! "1-2") = .ok (.value (-1)) ∧ Formula.parse 99 (b! "3-4") = .ok (.value (-1)) ∧
    ∃ N, ∀ m, N ≤ m → Formula.parse m (b! "1-2+3-4") = .ok (.value (-2)) :=
  ⟨by cbv, by cbv, by
    have h := C110_add (n := 99) (k := 99) (s := b! "1-2") (t := b! "3-4") (v := -1) (w := -1) (by cbv) (by cbv)
    rw [show (-1 : Int64) + -1 = -2 by decide] at h
    exact h⟩

/-- Multiplied without brackets they are not: `1+1` is 2 and `2` is 2, but `1+1*2` is 3. -/
example : Formula.parse 99 (b! "1+1") = .ok (.value 2) ∧ Formula.parse 99 (b! "1+1*2") = .ok (.value 3) ∧
    ∃ N, ∀ m, N ≤ m → Formula.parse m (b! "(1+1)*(2)") = .ok (.value 4) :=
  ⟨by cbv, by cbv, (C110_op (n := 99) (k := 99) (s := b! "1+1") (t := b! "2") (v := 2) (w := 2) (by cbv) (by cbv)).2.2.1⟩

/-- Subtracted without brackets they are not either. -/
example : Formula.parse 99 (b! "1-2-3") = .ok (.value (-4)) ∧ ∃ N, ∀ m, N ≤ m → Formula.parse m (b! "1-(2-3)") = .ok (.value 2) :=
  ⟨by cbv, C110_sub (n := 99) (k := 99) (s := b! "1") (t := b! "2-3") (v := 1) (w := -1) (by cbv) (by cbv)⟩

/-- Brackets can turn a text that is not a formula into one: nothing follows for the parts from the whole. -/
example : (∃ o p, Formula.parse 99 (b! "1)+(2") = .ok (.failed o p)) ∧ Formula.parse 99 (b! "(1)+(2)") = .ok (.value 3) := ⟨⟨_, _, by cbv⟩, by cbv⟩

/-- White space, brackets and the minus sign. -/
example : ∃ N, ∀ m, N ≤ m → Formula.parse m (b! " 7 ") = .ok (.value 7) :=
  C110_blanks (n := 99) (s := b! "7") (b := b! " ") (b' := b! " ") (by cbv) ⟨[' '], by simp [White], rfl⟩ ⟨[' '], by simp [White], rfl⟩
example : ∃ N, ∀ m, N ≤ m → Formula.parse m (b! "-(1+2)") = .ok (.value (-3)) := C110_minus (n := 99) (s := b! "1+2") (v := 3) (by cbv)
example : ∃ N, ∀ m, N ≤ m → Formula.parse m (b! "(1+2)") = .ok (.value 3) := C110_brackets (n := 99) (s := b! "1+2") (v := 3) (by cbv)

/-- `1+2` times `3`, in postfix form. -/
example : ∃ N, ∀ m, N ≤ m → ToRpn.parse m (b! "(1+2)*(3)") = .ok (.value [.int 1, .int 2, .str (b! "+"), .int 3, .str (b! "*")]) :=
  C110_torpn (n := 99) (k := 99) (s := b! "1+2") (t := b! "3") (l := [.int 1, .int 2, .str (b! "+")]) (l' := [.int 3]) (by cbv) (by cbv) 0x2a (by decide)

#print axioms C110_blanks
#print axioms C110_brackets
#print axioms C110_minus
#print axioms C110_op
#print axioms C110_add
#print axioms C110_sub
#print axioms C110_torpn

end Takenoco
