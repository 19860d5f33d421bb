import Verif.Lemmas.FormulaText
/-
C36: the formula example evaluates expressions.
C37: the torpn example gives their postfix form.
-/
namespace Takenoco
open Spec

theorem formula_rules : RulesFor Formula.formulaProductionRules NumTok id int64Neg int64Op where
  num_tok _ _ h := ⟨h.1, h.2.2⟩
  neg_tok _ h := h
  bin_tok _ _ h := h
  num_neg _ := rfl
  gives c l x rest h := formulaTr_gives c l x rest h

theorem rpn_rules : RulesFor ToRpn.formulaProductionRules RpnTok Rpn.int Rpn.neg (fun op a b => some (Rpn.bin op a b)) where
  num_tok _ _ h := h
  neg_tok _ h := h
  bin_tok _ _ h := h
  num_neg _ := rfl
  gives c l x rest h := by
    obtain ⟨v, y, h1, h2, h3⟩ := rpnTr_gives c l x rest h
    refine ⟨fun v' hv => ?_, fun hn => by rw [hn] at h1; cases h1⟩
    rw [h1] at hv; cases hv
    exact ⟨y, h2, h3⟩

theorem postfix_fold (e : Expr) : e.fold (litOf Rpn.int) Rpn.neg (fun op a b => some (Rpn.bin op a b)) = some e.postfix := by
  induction e with
  | lit n => rfl
  | neg e ih => simp [Expr.fold, ih, Expr.postfix]
  | bin op l r ihl ihr => simp [Expr.fold, ihl, ihr, Expr.postfix]

theorem outcome_matched {r : Out PRes} {c : Ctx} (h : Outcome.of r = .matched c) : r = .ok (c, none) := by
  cases r with
  | panic x => cases h
  | timeout => cases h
  | ok oe =>
    obtain ⟨o, e⟩ := oe
    cases e with
    | some e => cases h
    | none =>
      simp only [Outcome.of] at h
      split at h <;> cases h
      rfl

theorem outcome_panicked {r : Out PRes} {x : Panic} (h : Outcome.of r = .panicked x) : r = .panic x := by
  cases r with
  | panic y => cases h; rfl
  | timeout => cases h
  | ok oe =>
    obtain ⟨o, e⟩ := oe
    cases e with
    | some e => cases h
    | none =>
      simp only [Outcome.of] at h
      split at h <;> cases h

theorem newStrCtx_at (s : Bytes) : At (newStrCtx s) [] s := ⟨rfl, rfl, rfl⟩

theorem formula_accepted {s : Bytes} {e : Expr} (h : Spelled s e) :
    (∀ v, e.value = some v → ∃ N, ∀ n, N ≤ n → Formula.parse n s = .ok (.value v)) ∧
    (e.value = none → ∃ N, ∀ n, N ≤ n → Formula.parse n s = .panic .divZero) := by
  have hk := program_ok formula_rules h
  constructor
  · intro v hv
    obtain ⟨c', h1, h2⟩ := hk.1 v hv (newStrCtx s) (by simpa using newStrCtx_at s)
    obtain ⟨l, h3, a, rfl, h4⟩ := h2.stack
    obtain ⟨N, hN⟩ := run_of_den (outcome_matched h1) (by simp)
    refine ⟨N, fun n hn => ?_⟩
    have : run Formula.env n Formula.program (newStrCtx s) = _ := hN n hn
    have h6 : c'.stack = [a] := by rw [h3]; rfl
    simp [Formula.parse, this, Formula.finish, h2.at_.ok, h6, goGet, h4.2, Formula.asInt]
  · intro hv
    have h1 := hk.2 hv (newStrCtx s) (newStrCtx_at s)
    obtain ⟨N, hN⟩ := run_of_den (outcome_panicked h1) (by simp)
    refine ⟨N, fun n hn => ?_⟩
    have : run Formula.env n Formula.program (newStrCtx s) = _ := hN n hn
    simp [Formula.parse, this]

theorem torpn_accepted {s : Bytes} {e : Expr} (h : Spelled s e) : ∃ N, ∀ n, N ≤ n → ToRpn.parse n s = .ok (.value e.postfix.items) := by
  obtain ⟨c', h1, h2⟩ := (program_ok rpn_rules h).1 _ (postfix_fold e) (newStrCtx s) (by simpa using newStrCtx_at s)
  obtain ⟨l, h3, a, rfl, h4⟩ := h2.stack
  obtain ⟨N, hN⟩ := run_of_den (outcome_matched h1) (by simp)
  refine ⟨N, fun n hn => ?_⟩
  have : run ToRpn.env n ToRpn.program (newStrCtx s) = _ := hN n hn
  have h6 : c'.stack = [a] := by rw [h3]; rfl
  cases he : e.postfix with
  | int v =>
    rw [he] at h4
    simp [ToRpn.parse, this, ToRpn.finish, h2.at_.ok, h6, goGet, h4.2, Formula.asInt, Rpn.items]
  | list items =>
    rw [he] at h4
    obtain ⟨_, h5, l, h7, h8⟩ := h4
    simp [ToRpn.parse, this, ToRpn.finish, h2.at_.ok, h6, goGet, h5, h7, ToRpn.asList, Rpn.items, h8]

/-- `formula.Parse` of a text that denotes an expression returns the value of the expression, and panics if there is a
division by zero. -/
theorem C36_parse (s : Bytes) (e : Expr) (h : Denotes s e) :
    (∀ v, e.value = some v → ∃ N, ∀ n, N ≤ n → Formula.parse n s = .ok (.value v)) ∧
    (e.value = none → ∃ N, ∀ n, N ≤ n → Formula.parse n s = .panic .divZero) := formula_accepted (denotes_spelled h)

/-- `torpn.Parse` of a text that denotes an expression returns the items of its postfix form. -/
theorem C37_parse (s : Bytes) (e : Expr) (h : Denotes s e) : ∃ N, ∀ n, N ≤ n → ToRpn.parse n s = .ok (.value e.postfix.items) :=
  torpn_accepted (denotes_spelled h)

/-! ### Every expression has a text -/

/-- The decimal digits of a number. -/
def decDigits (n : Nat) : Bytes := if n < 10 then [UInt8.ofNat (0x30 + n)] else decDigits (n / 10) ++ [UInt8.ofNat (0x30 + n % 10)]
termination_by n

theorem digit_facts {d : Nat} (h : d < 10) : DigitOf 10 (UInt8.ofNat (0x30 + d)) d ∧ isDec (UInt8.ofNat (0x30 + d)) = true := by
  have : ∀ d < 10, DigitOf 10 (UInt8.ofNat (0x30 + d)) d ∧ isDec (UInt8.ofNat (0x30 + d)) = true := by
    unfold DigitOf
    decide
  exact this d h

theorem decDigits_numeral (n : Nat) : Numeral 10 (decDigits n) n ∧ (∀ b ∈ decDigits n, isDec b = true) ∧
    ∃ b s, decDigits n = b :: s ∧ (b = 0x30 → n = 0) := by
  induction n using Nat.strongRecOn with
  | ind n ih =>
    rw [decDigits]
    split
    · rename_i h
      refine ⟨.digit (digit_facts h).1, fun b hb => ?_, _, _, rfl, ?_⟩
      · rw [List.mem_singleton.1 hb]; exact (digit_facts h).2
      · have : ∀ d < 10, UInt8.ofNat (0x30 + d) = 0x30 → d = 0 := by decide
        exact this n h
    · rename_i h
      obtain ⟨h1, h2, b, s, h3, h4⟩ := ih (n / 10) (by omega)
      refine ⟨?_, fun b hb => ?_, b, s ++ [_], by rw [h3]; rfl, fun hb => by have := h4 hb; omega⟩
      · have := Numeral.snoc h1 (digit_facts (d := n % 10) (by omega)).1
        rwa [show n / 10 * 10 + n % 10 = n by omega] at this
      · rcases List.mem_append.1 hb with hb | hb
        · exact h2 b hb
        · rw [List.mem_singleton.1 hb]; exact (digit_facts (by omega)).2

theorem takeWhile_every {B : UInt8 → Bool} {s : Bytes} (h : ∀ b ∈ s, B b = true) : s.takeWhile B = s := by
  induction s with
  | nil => rfl
  | cons a s ih => rw [List.takeWhile_cons, if_pos (h a (by simp)), ih fun b hb => h b (by simp [hb])]

theorem decDigits_text {n : Nat} (h : n < 2 ^ 63) : NumberText (decDigits n) n := by
  obtain ⟨h1, h2, b, s, h3, h4⟩ := decDigits_numeral n
  refine ⟨⟨b, s, h3, h2 b (by rw [h3]; simp)⟩, ?_, ?_, h⟩
  · by_cases hn : n = 0
    · subst hn
      have : decDigits 0 = [0x30] := by rw [decDigits]; rfl
      rw [this]; rfl
    · rw [h3]
      unfold natRun
      split
      · rename_i heq; cases heq; exact absurd (h4 rfl) hn
      · rw [← h3]
        exact takeWhile_every fun b hb => by unfold or_; rw [h2 b hb]; rfl
  · have : withoutUnderscores (decDigits n) = decDigits n := List.filter_eq_self.2 fun b hb => by
      have := h2 b hb
      have hne : b ≠ 0x5f := fun e => by subst e; exact absurd this (by decide)
      simpa using hne
    rw [this]; exact h1

/-- The literals of an expression are in the range of `int64`. -/
def Expr.Small : Expr → Prop
  | .lit n => n < 2 ^ 63
  | .neg e => Small e
  | .bin _ l r => Small l ∧ Small r

theorem blanks_nil : Blanks [] := ⟨[], by simp, rfl⟩

/-- Every expression can be written: the hypothesis of `C36_parse` and `C37_parse` can be met. -/
theorem C36_written (e : Expr) (h : Expr.Small e) : ∃ s, Denotes s e := by
  have key : ∃ s, Writes .atom e s := by
    induction e with
    | lit n => exact ⟨_, .lit (decDigits_text h) blanks_nil⟩
    | neg e ih =>
      obtain ⟨s, hs⟩ := ih h
      exact ⟨_, .paren blanks_nil (.product (.unary (.neg blanks_nil (.atom hs)))) blanks_nil⟩
    | bin op l r ihl ihr =>
      obtain ⟨s, hs⟩ := ihl h.1
      obtain ⟨t, ht⟩ := ihr h.2
      cases hop : op.tight with
      | true => exact ⟨_, .paren blanks_nil (.product (.mul hop (.unary (.atom hs)) blanks_nil (.atom ht))) blanks_nil⟩
      | false => exact ⟨_, .paren blanks_nil (.add hop (.product (.unary (.atom hs))) blanks_nil (.unary (.atom ht))) blanks_nil⟩
  obtain ⟨s, hs⟩ := key
  exact ⟨s, [], s, rfl, blanks_nil, .product (.unary (.atom hs))⟩

/-! ### Examples -/

private theorem num (d : UInt8) (n : Nat) (h : isDec d = true) (hd : DigitOf 10 d n) (hn : n < 10) (hz : natRun [d] = [d]) : NumberText [d] n := by
  refine ⟨⟨d, [], rfl, h⟩, hz, ?_, by omega⟩
  have : d ≠ 0x5f := fun e => by subst e; exact absurd h (by decide)
  have : withoutUnderscores [d] = [d] := by simp [withoutUnderscores, this]
  rw [this]; exact .digit hd

private theorem blank : Blanks [0x20] := ⟨[' '], by simp [White], by decide⟩
private theorem lit1 : NumberText (b! "1") 1 := num _ _ rfl (by unfold DigitOf; decide) (by decide) rfl
private theorem lit2 : NumberText (b! "2") 2 := num _ _ rfl (by unfold DigitOf; decide) (by decide) rfl
private theorem lit3 : NumberText (b! "3") 3 := num _ _ rfl (by unfold DigitOf; decide) (by decide) rfl

/-- ` 1 -2* (-3-1)` -/
private def exprA : Expr := .bin .sub (.lit 1) (.bin .mul (.lit 2) (.bin .sub (.neg (.lit 3)) (.lit 1)))
private theorem denotesA : Denotes (b! " 1 -2* (-3-1)") exprA :=
  ⟨b! " ", b! "1 -2* (-3-1)", rfl, blank,
    .add (op := .sub) (s := b! "1 ") rfl (.product (.unary (.atom (.lit (w := b! "1") lit1 blank)))) blanks_nil
      (.mul (op := .mul) (s := b! "2") (b := b! " ") rfl (.unary (.atom (.lit (w := b! "2") lit2 blanks_nil))) blank
        (.atom (.paren (b₁ := []) (s := b! "-3-1") (b₂ := []) blanks_nil
          (.add (op := .sub) (s := b! "-3") rfl
            (.product (.unary (.neg (b := []) blanks_nil (.atom (.lit (w := b! "3") lit3 blanks_nil))))) blanks_nil
            (.unary (.atom (.lit (w := b! "1") lit1 blanks_nil)))) blanks_nil)))⟩

/-- The value of ` 1 -2* (-3-1)` is 9. -/
example : ∃ N, ∀ n, N ≤ n → Formula.parse n (b! " 1 -2* (-3-1)") = .ok (.value 9) := (C36_parse _ _ denotesA).1 9 (by decide)

/-- The postfix form of ` 1 -2* (-3-1)` is `1 2 -3 1 - * -`. -/
example : ∃ N, ∀ n, N ≤ n → ToRpn.parse n (b! " 1 -2* (-3-1)") =
    .ok (.value [.int 1, .int 2, .int (-3), .int 1, .str (b! "-"), .str (b! "*"), .str (b! "-")]) := C37_parse _ _ denotesA

/-- `1/(2 -2)` -/
private theorem denotesB : Denotes (b! "1/(2 -2)") (.bin .div (.lit 1) (.bin .sub (.lit 2) (.lit 2))) :=
  ⟨[], b! "1/(2 -2)", rfl, blanks_nil,
    .product (.mul (op := .div) (s := b! "1") (b := []) rfl (.unary (.atom (.lit (w := b! "1") lit1 blanks_nil))) blanks_nil
      (.atom (.paren (b₁ := []) (s := b! "2 -2") (b₂ := []) blanks_nil
        (.add (op := .sub) (s := b! "2 ") rfl (.product (.unary (.atom (.lit (w := b! "2") lit2 blank)))) blanks_nil
          (.unary (.atom (.lit (w := b! "2") lit2 blanks_nil)))) blanks_nil)))⟩

/-- `1/(2 -2)` panics. -/
example : ∃ N, ∀ n, N ≤ n → Formula.parse n (b! "1/(2 -2)") = .panic .divZero := (C36_parse _ _ denotesB).2 (by decide)

end Takenoco
