import Verif.Props.FormulaExact
/-
Texts of expressions put together from texts of expressions.
-/
namespace Takenoco
open Spec

/-- White space may follow. -/
theorem spells_blanks {l : Level} {p q : Bool} {e : Expr} {s b : Bytes} (h : Spells l p q e s) (hb : Blanks b) : Spells l p q e (s ++ b) := by
  induction h with
  | lit h1 h2 h3 => rw [List.append_assoc]; exact .lit h1 h2 (blanks_append h3 hb)
  | plus h1 h2 h3 => rw [List.cons_append, List.append_assoc]; exact .plus h1 h2 (blanks_append h3 hb)
  | paren h1 h2 h3 _ =>
    simp only [List.cons_append, List.append_assoc]
    exact .paren h1 h2 (blanks_append h3 hb)
  | atom _ ih => exact .atom ih
  | neg h1 _ ih => rw [List.cons_append, List.append_assoc]; exact .neg h1 ih
  | min h1 h2 => rw [List.cons_append, List.append_assoc]; exact .min h1 (blanks_append h2 hb)
  | unary _ ih => exact .unary ih
  | mul h1 h2 h3 _ _ ih => simp only [List.cons_append, List.append_assoc]; exact .mul h1 h2 h3 ih
  | product _ ih => exact .product ih
  | add h1 h2 h3 _ _ ih => simp only [List.cons_append, List.append_assoc]; exact .add h1 h2 h3 ih

/-- What is accepted at the beginning is accepted behind an operator. -/
theorem spells_after {l : Level} {p q : Bool} {e : Expr} {s : Bytes} (h : Spells l p q e s) : p = false → ∀ p', Spells l p' q e s := by
  induction h with
  | lit h1 h2 h3 => exact fun _ _ => .lit h1 h2 h3
  | plus h1 h2 h3 => exact fun _ _ => .plus h1 h2 h3
  | paren h1 h2 h3 _ => exact fun _ _ => .paren h1 h2 h3
  | atom _ ih => exact fun hp p' => .atom (ih hp p')
  | neg h1 h2 _ => exact fun _ _ => .neg h1 h2
  | min _ _ => exact fun hp => by cases hp
  | unary _ ih => exact fun hp p' => .unary (ih hp p')
  | mul h1 _ h3 h4 ih _ => exact fun hp p' => .mul h1 (ih hp p') h3 h4
  | product _ ih => exact fun hp p' => .product (ih hp p')
  | add h1 _ h3 h4 ih _ => exact fun hp p' => .add h1 (ih hp p') h3 h4

theorem int64_add_eq (a b : Int64) : Int64.ofInt (a.toInt + b.toInt) = a + b := by rw [Int64.ofInt_add, Int64.ofInt_toInt, Int64.ofInt_toInt]
theorem int64_sub_eq (a b : Int64) : Int64.ofInt (a.toInt - b.toInt) = a - b := by rw [Int64.ofInt_sub, Int64.ofInt_toInt, Int64.ofInt_toInt]
theorem int64_mul_eq (a b : Int64) : Int64.ofInt (a.toInt * b.toInt) = a * b := by rw [Int64.ofInt_mul, Int64.ofInt_toInt, Int64.ofInt_toInt]
theorem int64_neg_eq (a : Int64) : Int64.ofInt (-a.toInt) = -a := by rw [Int64.ofInt_neg, Int64.ofInt_toInt]
theorem int64_div_eq (a b : Int64) : Int64.ofInt (a.toInt.tdiv b.toInt) = a / b := by
  apply Int64.toInt_inj.1
  rw [Int64.toInt_ofInt, Int64.toInt_div]

theorem value_binOp {op : BinOp} {x y : Expr} {v w : Int64} (hx : x.value = some v) (hy : y.value = some w) : (Expr.bin op x y).value = int64Op op v w := by
  unfold Expr.value at *
  simp only [Expr.fold, hx, hy, Option.bind_some]

theorem value_neg {x : Expr} {v : Int64} (hx : x.value = some v) : (Expr.neg x).value = some (-v) := by
  unfold Expr.value at *
  simp only [Expr.fold, hx, Option.map_some, int64Neg, int64_neg_eq]

theorem value_parts {op : BinOp} {x y : Expr} {u : Int64} (h : (Expr.bin op x y).value = some u) :
    ∃ v w, x.value = some v ∧ y.value = some w ∧ int64Op op v w = some u := by
  unfold Expr.value at *
  simp only [Expr.fold, Option.bind_eq_some_iff] at h
  obtain ⟨v, h1, w, h2, h3⟩ := h
  exact ⟨v, w, h1, h2, h3⟩

/-- A sum behind a sum and a plus sign: its terms are added one after the other. -/
theorem spells_sum {l : Level} {p r : Bool} {y : Expr} {t : Bytes} (h : Spells l p r y t) : l = .sum → p = false → ∀ {q : Bool} {x : Expr} {s b : Bytes},
    Spells .sum false q x s → Blanks b → ∀ {v w : Int64}, x.value = some v → y.value = some w →
    ∃ z, Spells .sum false r z (s ++ 0x2b :: (b ++ t)) ∧ z.value = some (v + w) := by
  induction h with
  | product h _ =>
    intro _ hp q x s b hs hb v w hv hw
    subst hp
    exact ⟨_, .add (op := .add) rfl hs hb (spells_after h rfl q), by rw [value_binOp hv hw]; simp only [int64Op, int64_add_eq]⟩
  | @add p' q' r' op s' b' t' x' y' h1 h2 h3 h4 ih _ =>
    intro _ hp q x s b hs hb v w hv hw
    obtain ⟨v', w', hv', hw', ho⟩ := value_parts hw
    obtain ⟨z, hz, hzv⟩ := ih rfl hp hs hb hv hv'
    refine ⟨_, by simpa using Spells.add h1 hz h3 h4, ?_⟩
    rw [value_binOp hzv hw']
    cases op with
    | add =>
      simp only [int64Op, int64_add_eq, Option.some.injEq] at ho ⊢
      rw [← ho, Int64.add_assoc]
    | sub =>
      simp only [int64Op, int64_sub_eq, Option.some.injEq] at ho ⊢
      rw [← ho, Int64.sub_eq_add_neg, Int64.sub_eq_add_neg, Int64.add_assoc]
    | mul => cases h1
    | div => cases h1
  | _ => intro hl; cases hl

theorem spelled_brackets {s : Bytes} {e : Expr} (h : Spelled s e) : ∀ p, Spells .atom p false e (0x28 :: (s ++ [0x29])) := by
  intro p
  obtain ⟨b, s', q, rfl, h1, h2⟩ := h
  have := Spells.paren (p := p) h1 h2 blanks_nil
  simpa using this

theorem spelled_of {q : Bool} {s : Bytes} {e : Expr} (h : Spells .sum false q e s) : Spelled s e := ⟨[], s, q, rfl, blanks_nil, h⟩

theorem spelled_op {s t : Bytes} {x y : Expr} (hs : Spelled s x) (ht : Spelled t y) (op : BinOp) :
    Spelled (0x28 :: (s ++ 0x29 :: op.char :: 0x28 :: (t ++ [0x29]))) (.bin op x y) := by
  have h1 := spelled_brackets hs false
  have h2 := spelled_brackets ht false
  cases ho : op.tight with
  | true =>
    have := Spells.mul ho (.unary (.atom h1)) blanks_nil (.atom h2)
    refine spelled_of (.product (q := false) ?_)
    simpa using this
  | false =>
    have := Spells.add ho (.product (.unary (.atom h1))) blanks_nil (.unary (.atom h2))
    refine spelled_of (q := false) ?_
    simpa using this

theorem spelled_blanks {s b b' : Bytes} {e : Expr} (h : Spelled s e) (hb : Blanks b) (hb' : Blanks b') : Spelled (b ++ s ++ b') e := by
  obtain ⟨b₀, s', q, rfl, h1, h2⟩ := h
  exact ⟨b ++ b₀, s' ++ b', q, by simp, blanks_append hb h1, spells_blanks h2 hb'⟩

end Takenoco
