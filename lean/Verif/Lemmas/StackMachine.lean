import Verif.Spec.StackMachine
import Verif.Spec.Formula
/-
Lemmas on the evaluation of postfix notation.
-/
namespace Takenoco
open Spec

theorem stackRun_append (l m : List Value) (st : List Int64) : stackRun (l ++ m) st = (stackRun l st).bind (stackRun m) := by
  induction l generalizing st with
  | nil => rfl
  | cons x l ih =>
    simp only [List.cons_append, stackRun]
    cases stackStep x st with
    | none => rfl
    | some st' => exact ih st'

theorem opOfChar_char (op : BinOp) : opOfChar op.char = some op := by cases op <;> rfl

/-- A number with signs has a number as its postfix form, which is its value. -/
theorem signedNumber_postfix {e : Expr} (h : SignedNumber e) : ∃ v, e.postfix = .int v ∧ e.value = some v := by
  induction h with
  | lit n => exact ⟨_, rfl, rfl⟩
  | neg _ ih =>
    obtain ⟨v, h1, h2⟩ := ih
    exact ⟨int64Neg v, by simp [Expr.postfix, h1, Rpn.neg], by simp only [Expr.value, Expr.fold] at h2 ⊢; rw [h2]; rfl⟩

theorem stackRun_int (v : Int64) (st : List Int64) : stackRun (Rpn.int v).items st = some (v :: st) := rfl

theorem value_bin (op : BinOp) (l r : Expr) :
    (Expr.bin op l r).value = l.value.bind fun a => r.value.bind fun b => int64Op op a b := rfl

/-- The machine computes the value if no group has a sign. -/
theorem stackRun_postfix {e : Expr} (h : SignsOnNumbers e) (st : List Int64) : stackRun e.postfix.items st = e.value.map (· :: st) := by
  induction h generalizing st with
  | lit n => rfl
  | neg hs =>
    obtain ⟨v, h1, h2⟩ := signedNumber_postfix (.neg hs)
    rw [h1, h2]
    rfl
  | @bin op l r _ _ ihl ihr =>
    show stackRun (l.postfix.items ++ r.postfix.items ++ [.str [op.char]]) st = _
    rw [stackRun_append, stackRun_append, ihl, value_bin]
    cases l.value with
    | none => rfl
    | some a =>
      simp only [Option.map_some, Option.bind_some]
      rw [ihr]
      cases r.value with
      | none => rfl
      | some b =>
        simp only [Option.map_some, Option.bind_some, stackRun, stackStep, opOfChar_char]
        cases int64Op op a b <;> rfl

/-- How many more numbers than operators there are. -/
def surplus : List Value → Int
  | [] => 0
  | .int _ :: l => surplus l + 1
  | _ :: l => surplus l - 1

theorem surplus_append (l m : List Value) : surplus (l ++ m) = surplus l + surplus m := by
  induction l with
  | nil => simp [surplus]
  | cons x l ih =>
    rw [List.cons_append]
    cases x <;> simp only [surplus, ih] <;> omega

/-- The machine leaves as many numbers as there are more numbers than operators, and never none. -/
theorem stackRun_length (l : List Value) (st st' : List Int64) (h : stackRun l st = some st') :
    (st'.length : Int) = st.length + surplus l ∧ (st ≠ [] ∨ l ≠ [] → st' ≠ []) := by
  induction l generalizing st with
  | nil => cases h; exact ⟨by simp [surplus], fun h => h.elim id fun h => absurd rfl h⟩
  | cons x l ih =>
    simp only [stackRun, Option.bind_eq_some_iff] at h
    obtain ⟨st1, h1, h2⟩ := h
    obtain ⟨h3, h4⟩ := ih st1 h2
    unfold stackStep at h1
    split at h1
    · cases h1
      exact ⟨by rw [h3]; simp [surplus]; omega, fun _ => h4 (.inl (by simp))⟩
    · simp only [Option.bind_eq_some_iff, Option.map_eq_some_iff] at h1
      obtain ⟨op, _, v, _, rfl⟩ := h1
      exact ⟨by rw [h3]; simp [surplus]; omega, fun _ => h4 (.inl (by simp))⟩
    · cases h1

/-- Either no group has a sign, or there are too many operators. -/
theorem signs_or_surplus (e : Expr) :
    surplus e.postfix.items ≤ 1 ∧ (SignsOnNumbers e ∨ surplus e.postfix.items ≤ 0) ∧ ((∃ v, e.postfix = .int v) → SignedNumber e) := by
  induction e with
  | lit n => exact ⟨by simp [Expr.postfix, Rpn.items, surplus], .inl (.lit n), fun _ => .lit n⟩
  | neg e ih =>
    obtain ⟨h1, h2, h3⟩ := ih
    cases he : e.postfix with
    | int v =>
      have hs := h3 ⟨v, he⟩
      exact ⟨by simp [Expr.postfix, he, Rpn.neg, Rpn.items, surplus], .inl (.neg hs), fun _ => .neg hs⟩
    | list l =>
      have : surplus (Expr.neg e).postfix.items = surplus e.postfix.items - 1 := by
        simp [Expr.postfix, he, Rpn.neg, Rpn.items, surplus_append, surplus]
        omega
      refine ⟨by omega, .inr (by omega), ?_⟩
      rintro ⟨v, hv⟩
      simp only [Expr.postfix, he, Rpn.neg] at hv
      cases hv
  | bin op l r ihl ihr =>
    obtain ⟨h1, h2, _⟩ := ihl
    obtain ⟨h4, h5, _⟩ := ihr
    have : surplus (Expr.bin op l r).postfix.items = surplus l.postfix.items + surplus r.postfix.items - 1 := by
      show surplus (l.postfix.items ++ r.postfix.items ++ [.str [op.char]]) = _
      simp only [surplus_append, surplus]
      omega
    refine ⟨by omega, ?_, ?_⟩
    · rcases h2 with h2 | h2
      · rcases h5 with h5 | h5
        · exact .inl (.bin h2 h5)
        · exact .inr (by omega)
      · exact .inr (by omega)
    · rintro ⟨v, hv⟩
      cases hv

theorem items_ne (e : Expr) : e.postfix.items ≠ [] := by
  induction e with
  | lit n => simp [Expr.postfix, Rpn.items]
  | neg e ih =>
    simp only [Expr.postfix]
    cases e.postfix <;> simp [Rpn.neg, Rpn.items]
  | bin op l r => simp [Expr.postfix, Rpn.bin, Rpn.items]

/-- If the machine gets through, no group has a sign. -/
theorem signs_of_stackRun {e : Expr} {st : List Int64} (h : stackRun e.postfix.items [] = some st) : SignsOnNumbers e := by
  obtain ⟨h1, h2⟩ := stackRun_length _ _ _ h
  have h3 := h2 (.inr (items_ne e))
  rcases (signs_or_surplus e).2.1 with h4 | h4
  · exact h4
  · cases st with
    | nil => exact absurd rfl h3
    | cons v st => simp only [List.length_cons, List.length_nil] at h1; omega

/-- The expression of a text without parentheses. -/
theorem signs_of_flat {l : Level} {p q : Bool} {e : Expr} {s : Bytes} (h : Spells l p q e s) (hs : (0x28 : UInt8) ∉ s) :
    SignsOnNumbers e ∧ (match l with | .atom | .unary => SignedNumber e | _ => True) := by
  induction h with
  | lit => exact ⟨.lit _, .lit _⟩
  | plus => exact ⟨.lit _, .lit _⟩
  | paren => simp at hs
  | atom _ ih => exact ih hs
  | neg _ _ ih => exact ⟨.neg (ih (by simp at hs; exact hs.2)).2, .neg (ih (by simp at hs; exact hs.2)).2⟩
  | min => exact ⟨.neg (.lit _), .neg (.lit _)⟩
  | unary _ ih => exact ⟨(ih hs).1, trivial⟩
  | mul _ _ _ _ ih1 ih2 =>
    simp only [List.mem_append, List.mem_cons, not_or] at hs
    exact ⟨.bin (ih1 hs.1).1 (ih2 hs.2.2.2).1, trivial⟩
  | product _ ih => exact ⟨(ih hs).1, trivial⟩
  | add _ _ _ _ ih1 ih2 =>
    simp only [List.mem_append, List.mem_cons, not_or] at hs
    exact ⟨.bin (ih1 hs.1).1 (ih2 hs.2.2.2).1, trivial⟩

end Takenoco
