import Verif.Lemmas.StackMachine
import Verif.Props.FormulaExact
/-
C78: the output of the torpn example, evaluated with a stack, against the value of the formula example.
-/
namespace Takenoco
open Spec

/-- A stack machine that gets through the output of `torpn.Parse` ends with one number: what `formula.Parse` returns. -/
theorem C78_sound (s : Bytes) (n : Nat) (l : List Value) (st : List Int64) (h : ToRpn.parse n s = .ok (.value l)) (hc : stackRun l [] = some st) :
    ∃ v N, st = [v] ∧ ∀ m, N ≤ m → Formula.parse m s = .ok (.value v) := by
  obtain ⟨e, h1, rfl⟩ := (C65_value s l).1 ⟨n, h⟩
  have h2 := signs_of_stackRun hc
  rw [stackRun_postfix h2, Option.map_eq_some_iff] at hc
  obtain ⟨v, h3, rfl⟩ := hc
  obtain ⟨N, hN⟩ := (formula_accepted h1).1 v h3
  exact ⟨v, N, rfl, hN⟩

/-- It gets through if `formula.Parse` returns a value and no group has a minus sign in front, other than a subtraction. The
statement without that condition is refuted by `C78_signs_lost`. -/
theorem C78_complete_partial (s : Bytes) (e : Expr) (v : Int64) (hs : Spelled s e) (hg : SignsOnNumbers e) (n : Nat)
    (h : Formula.parse n s = .ok (.value v)) : ∃ l N, stackRun l [] = some [v] ∧ ∀ m, N ≤ m → ToRpn.parse m s = .ok (.value l) := by
  obtain ⟨e', h1, h2⟩ := (C64_value s v).1 ⟨n, h⟩
  rw [← (C64_unambiguous s e e' hs h1).1] at h2
  obtain ⟨N, hN⟩ := torpn_accepted hs
  exact ⟨_, N, by rw [stackRun_postfix hg, h2]; rfl, hN⟩

/-- In particular for texts without parentheses. -/
theorem C78_flat_partial (s : Bytes) (hs : (0x28 : UInt8) ∉ s) (n : Nat) (v : Int64) (h : Formula.parse n s = .ok (.value v)) :
    ∃ l N, stackRun l [] = some [v] ∧ ∀ m, N ≤ m → ToRpn.parse m s = .ok (.value l) := by
  obtain ⟨e, h1, h2⟩ := (C64_value s v).1 ⟨n, h⟩
  obtain ⟨b, s', q, rfl, _, h3⟩ := id h1
  exact C78_complete_partial _ e v h1 (signs_of_flat h3 (by simp at hs; exact hs.2)).1 n h

private theorem digit (k : Nat) (h : 1 ≤ k ∧ k ≤ 9) : DigitsText [UInt8.ofNat (0x30 + k)] k := by
  have h : k = 1 ∨ k = 2 ∨ k = 3 ∨ k = 4 ∨ k = 5 ∨ k = 6 ∨ k = 7 ∨ k = 8 ∨ k = 9 := by omega
  rcases h with rfl | rfl | rfl | rfl | rfl | rfl | rfl | rfl | rfl <;>
    exact ⟨⟨_, [], rfl, rfl⟩, rfl, Numeral.digit (by unfold DigitOf; decide)⟩

private theorem none' : Blanks [] := ⟨[], by simp, rfl⟩

private theorem num {p : Bool} (k : Nat) (h : 1 ≤ k ∧ k ≤ 9) : Spells .unary p true (.lit k) [UInt8.ofNat (0x30 + k)] :=
  .atom (.lit (b := []) (digit k h) (by omega) none')

private theorem two_minus_three {p : Bool} : Spells .unary p false (.bin .sub (.lit 2) (.lit 3)) (b! "(2-3)") :=
  .atom (.paren (b₁ := []) (s := b! "2-3") (b₂ := []) none' (.add (op := .sub) (s := b! "2") (b := []) (t := b! "3") rfl
    (.product (.unary (num 2 (by decide)))) none' (.unary (num 3 (by decide)))) none')

/-- `1--(2-3)` -/
private theorem text1 : Spelled (b! "1--(2-3)") (.bin .sub (.lit 1) (.neg (.bin .sub (.lit 2) (.lit 3)))) :=
  ⟨[], _, false, rfl, none', .add (op := .sub) (s := b! "1") (b := []) (t := b! "-(2-3)") rfl (.product (.unary (num 1 (by decide)))) none'
    (.unary (.neg (b := []) none' two_minus_three))⟩

/-- `-(1-(2-3))` -/
private theorem text2 : Spelled (b! "-(1-(2-3))") (.neg (.bin .sub (.lit 1) (.bin .sub (.lit 2) (.lit 3)))) :=
  ⟨[], _, false, rfl, none', .product (.unary (.neg (b := []) none' (.atom (.paren (b₁ := []) (s := b! "1-(2-3)") (b₂ := []) none'
    (.add (op := .sub) (s := b! "1") (b := []) (t := b! "(2-3)") rfl (.product (.unary (num 1 (by decide)))) none' (.unary two_minus_three)) none'))))⟩

/-- `1-(2-3)`: the machine gets to 2, so `formula.Parse` does. -/
example : ∃ v N, [(2 : Int64)] = [v] ∧ ∀ m, N ≤ m → Formula.parse m (b! "1-(2-3)") = .ok (.value v) := by
  have h : Spelled (b! "1-(2-3)") (.bin .sub (.lit 1) (.bin .sub (.lit 2) (.lit 3))) :=
    ⟨[], _, false, rfl, none', .add (op := .sub) (s := b! "1") (b := []) (t := b! "(2-3)") rfl (.product (.unary (num 1 (by decide)))) none'
      (.unary two_minus_three)⟩
  obtain ⟨n, hn⟩ := (C65_value _ _).2 ⟨_, h, rfl⟩
  exact C78_sound _ n _ _ hn (by decide)

/-- `1-2*-3` has no parentheses. -/
example : ∃ l N, stackRun l [] = some [7] ∧ ∀ m, N ≤ m → ToRpn.parse m (b! "1-2*-3") = .ok (.value l) := by
  have h : Spelled (b! "1-2*-3") (.bin .sub (.lit 1) (.bin .mul (.lit 2) (.neg (.lit 3)))) :=
    ⟨[], _, true, rfl, none', .add (op := .sub) (s := b! "1") (b := []) (t := b! "2*-3") rfl (.product (.unary (num 1 (by decide)))) none'
      (.mul (op := .mul) (s := b! "2") (b := []) (t := b! "-3") rfl (.unary (num 2 (by decide))) none' (.neg (b := []) none' (num 3 (by decide))))⟩
  obtain ⟨n, hn⟩ := (C64_value _ _).2 ⟨_, h, rfl⟩
  exact C78_flat_partial _ (by decide) n 7 hn

/-- The sign of a group is written like a subtraction: two texts with the same output but different values. So the value is
no function of the output, and no evaluator of the output, with a stack or not, computes it. -/
theorem C78_signs_lost : ∃ l v w, v ≠ w ∧
    (∃ n, ToRpn.parse n (b! "1--(2-3)") = .ok (.value l)) ∧ (∃ n, Formula.parse n (b! "1--(2-3)") = .ok (.value v)) ∧
    (∃ n, ToRpn.parse n (b! "-(1-(2-3))") = .ok (.value l)) ∧ (∃ n, Formula.parse n (b! "-(1-(2-3))") = .ok (.value w)) ∧
    stackRun l [] = none :=
  ⟨[.int 1, .int 2, .int 3, .str [0x2d], .str [0x2d], .str [0x2d]], 0, -2, by decide, (C65_value _ _).2 ⟨_, text1, rfl⟩,
    (C64_value _ _).2 ⟨_, text1, rfl⟩, (C65_value _ _).2 ⟨_, text2, rfl⟩, (C64_value _ _).2 ⟨_, text2, rfl⟩, by decide⟩

end Takenoco
