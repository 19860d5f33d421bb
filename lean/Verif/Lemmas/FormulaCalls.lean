import Verif.Lemmas.FormulaLeaves
import Verif.Lemmas.Traverse
/-
The parser calls of the formula grammar.
-/
namespace Takenoco
open Spec Trace

variable {tenv : TEnv} {N : Nat}

/-! ### The production rules -/

/-- A terminal that takes one object and puts one AST, and the operands and operators made of it. -/
def oneB (K : Nat) : Bounds where
  hit x s y t k := y = x + 1 ∧ t = s + 1 ∧ k ≤ K
  miss _ k := k ≤ K
  stop _ k := k ≤ K
  zero _ := Nat.zero_le _

theorem led_objAny (asts : List Ast) : LedG (astSource asts) tenv N (tickB (oneB 0)) (.prim objAny) := by
  refine ledG_prim fun c hc => ?_
  obtain ⟨h1, h2, h3, h4⟩ := hc
  simp only [astSource] at h2 h4
  unfold objAny lightParser withSlice
  simp only [h2]
  cases hi : (astSliceSrc asts).items[c.pos]? with
  | none => exact Nat.le_refl 0
  | some w =>
    have h5 := (List.getElem?_eq_some_iff.1 hi).1
    simp only [astSliceSrc, List.length_map] at h5
    refine ⟨⟨h1, rfl, rfl, ?_⟩, ?_, ?_, Nat.le_refl 0⟩ <;> simp [pushObj, fixStatus, astSource]
    omega

theorem led_objClassFn (fn : Value → Out Bool) (asts : List Ast) : LedG (astSource asts) tenv N (tickB (oneB 0)) (.prim (objClassFn fn)) := by
  refine ledG_prim fun c hc => ?_
  obtain ⟨h1, h2, h3, h4⟩ := hc
  simp only [astSource] at h2 h4
  unfold objClassFn lightParser withSlice
  simp only [h2]
  cases hi : (astSliceSrc asts).items[c.pos]? with
  | none => exact Nat.le_refl 0
  | some w =>
    have h5 := (List.getElem?_eq_some_iff.1 hi).1
    simp only [astSliceSrc, List.length_map] at h5
    simp only
    cases fn w with
    | panic p => exact Nat.le_refl 0
    | timeout => exact Nat.le_refl 0
    | ok b =>
      cases b with
      | false => exact Nat.le_refl 0
      | true =>
        refine ⟨⟨h1, rfl, rfl, ?_⟩, ?_, ?_, Nat.le_refl 0⟩ <;> simp [pushObj, fixStatus, astSource]
        omega

/-- The whole of the objects has been taken. -/
def atEndB (n : Nat) : Bounds where
  hit x s y t k := x = n ∧ y = x ∧ t = s ∧ k = 0
  miss _ k := k = 0
  stop _ k := k = 0
  zero _ := rfl

theorem led_objEnd (asts : List Ast) : LedG (astSource asts) tenv N (tickB (atEndB asts.length)) (.prim objEnd) := by
  refine ledG_prim fun c hc => ?_
  obtain ⟨h1, h2, h3, h4⟩ := hc
  simp only [astSource] at h2 h4
  unfold objEnd lightParser withSlice
  simp only [h2]
  by_cases h : c.pos = (astSliceSrc asts).items.length
  · simp only [h, if_true]
    exact ⟨⟨h1, rfl, rfl, by simp [fixStatus, astSliceSrc, astSource]⟩, by simp [astSliceSrc], rfl, rfl, rfl⟩
  · simp only [h, if_false]
    rfl

theorem led_start0 {σ : LedSource} : LedG σ tenv N (tickB (atEndB 0)) (.prim startP) := by
  refine ledG_prim fun c hc => ?_
  rw [startP_eq]
  split
  next h => exact ⟨⟨hc.1, hc.2.1, rfl, hc.2.2.2⟩, h, rfl, rfl, rfl⟩
  · rfl

open Lean.Parser.Tactic in
/-- Arithmetic with bounds. -/
macro "bounds'" : tactic => `(tactic|
  (constructor
   all_goals
     intros
     simp only [tickB, seqB, nilB, altB, noneB, transB, optB, oneB, atEndB, ruleB] at *
     casesm* _ ∧ _, ∃ _, _, _ ∨ _, False
   all_goals try subst_vars
   all_goals omega))

theorem trOne {t : TSem} (h : ∀ c l l', t c l = .ok (l', none) → l'.length = 1) : LedTr tenv N (fun _ q k => k = 0 ∧ q = 1) (fun _ k => k = 0) [.fn t] :=
  ledTr_fn (fs := [t]) fun c l l' h' => by
    simp only [applyTrs] at h'
    split at h'
    · cases h'
    · cases h'
    · rename_i h4; cases h'; exact h c l _ h4
    · cases h'

theorem unwrap_one {c : Ctx} {l l' : List Ast} (h : Formula.unwrapOperandItem c l = .ok (l', none)) : l'.length = 1 := by
  unfold Formula.unwrapOperandItem at h
  repeat' split at h
  all_goals first | cases h | skip
  rfl

theorem led_anyOperand (asts : List Ast) : LedG (astSource asts) tenv N (oneB 2) Formula.anyOperand :=
  (ledG_trans (by simp) (led_objAny asts) (trOne fun _ _ _ h => unwrap_one h)).mono (by bounds')

theorem led_isOperator (cls : String) (ops : List Bytes) (asts : List Ast) : LedG (astSource asts) tenv N (oneB 2) (Formula.isOperator cls ops) :=
  (ledG_trans (by simp) (led_objClassFn _ asts) (trOne fun _ _ _ h => unwrap_one h)).mono (by bounds')

theorem led_unaryLike {cls : String} {ops : List Bytes} {t : TSem} (ht : ∀ c l l', t c l = .ok (l', none) → l'.length = 1) (asts : List Ast) :
    LedG (astSource asts) tenv N (ruleB 8) (.trans (.flatGroup [Formula.isOperator cls ops, Formula.anyOperand]) [.fn t]) :=
  (ledG_trans (by simp) (ledG_flatGroup (ledGs_cons (led_isOperator cls ops asts) (ledGs_cons (led_anyOperand asts) ledGs_nil))) (trOne ht)).mono (by bounds')

theorem led_binaryLike {cls : String} {ops : List Bytes} {t : TSem} (ht : ∀ c l l', t c l = .ok (l', none) → l'.length = 1) (asts : List Ast) :
    LedG (astSource asts) tenv N (ruleB 8) (.trans (.flatGroup [Formula.anyOperand, Formula.isOperator cls ops, Formula.anyOperand]) [.fn t]) :=
  (ledG_trans (by simp) (ledG_flatGroup (ledGs_cons (led_anyOperand asts) (ledGs_cons (led_isOperator cls ops asts) (ledGs_cons (led_anyOperand asts) ledGs_nil))))
    (trOne ht)).mono (by bounds')

/-- The bounds of the check. -/
def checkB (n : Nat) : Bounds where
  hit _ _ _ _ k := n = 1 ∧ k ≤ 4
  miss _ k := k ≤ 4
  stop _ k := k ≤ 4
  zero _ := Nat.zero_le _

theorem led_check (asts : List Ast) : LedG (astSource asts) tenv N (checkB asts.length) Formula.checkG := by
  refine (ledG_flatGroup (ledGs_cons led_start0 (ledGs_cons (led_objAny asts) (ledGs_cons (led_objEnd asts) ledGs_nil)))).mono ?_
  constructor
  all_goals
    intros
    simp only [tickB, seqB, nilB, oneB, atEndB, checkB] at *
    casesm* _ ∧ _, ∃ _, _, _ ∨ _, False
  all_goals omega

theorem checkP_check : ∀ m, m < N → ∀ tg : TGram, tg.plain = Formula.checkG → CheckP 4 (tg.run tenv m) := by
  intro m hm tg htg tag asts
  have h := led_check (tenv := tenv) asts m hm tg htg (newObjCtx (astSliceSrc asts) tag) ⟨rfl, rfl, rfl, Nat.zero_le _⟩
  refine Upper.bind (B := 4) (B' := 0) (P := fun r => r.2 = none → r.1.status = .matched → asts.length = 1) (h.upper ?_ ?_) ?_
  · intro o k hr
    rcases o with ⟨o, _ | e⟩ | _ | _
    · simp only [ResIn] at hr
      split at hr
      · exact hr.2.2
      · exact hr
      · exact hr
    all_goals exact hr
  · rintro ⟨o, e⟩ k hr rfl ho
    simp only at ho
    simp only [ResIn, ho] at hr
    exact hr.2.1
  · rintro ⟨o, e⟩ hr
    refine upper_pure fun hb => ?_
    simp only [Bool.and_eq_true, decide_eq_true_eq, Option.isNone_iff_eq_none] at hb
    exact hr hb.1 hb.2

theorem LedTr.mono {P P' : Nat → Nat → Nat → Prop} {F F' : Nat → Nat → Prop} {ts : List Tr} (h : LedTr tenv N P F ts) (hP : ∀ l q k, P l q k → P' l q k)
    (hF : ∀ l k, F l k → F' l k) : LedTr tenv N P' F' ts := fun m hm trs ht c l => (h m hm trs ht c l).mono fun o k hk => by
  rcases o with ⟨l', _ | e⟩ | _ | _
  · exact hP _ _ _ hk
  · exact hF _ _ hk
  · exact hF _ _ hk
  · exact hF _ _ hk

/-- Production rules like those of the formula example. -/
def Arith (tenv : TEnv) (N : Nat) (precs : List (List Gram × Bool)) : Prop :=
  ruleCount precs = 3 ∧ ∀ q, q ∈ precs → ∀ g, g ∈ q.1 → ∀ asts, LedG (astSource asts) tenv N (ruleB 8) g

theorem trProduction {precs : List (List Gram × Bool)} (h : Arith tenv N precs) (n : Nat) :
    LedTr tenv N (fun l q k => q = 1 ∧ (l ≤ n → k ≤ 28 * (n + 1) * l + 28 * (n + 1))) (fun l k => l ≤ n → k ≤ 28 * (n + 1) * l + 28 * (n + 1))
      [.production precs Formula.checkG] := by
  have key : ∀ l k, k ≤ (l + 1) * ((l + 1) * (ruleCount precs * 8) + 4) → l ≤ n → k ≤ 28 * (n + 1) * l + 28 * (n + 1) := by
    intro l k hk hl
    rw [h.1] at hk
    refine Nat.le_trans hk ?_
    rw [show 28 * (n + 1) * l + 28 * (n + 1) = (l + 1) * (28 * (n + 1)) by rw [Nat.add_mul, Nat.mul_comm l]; omega]
    exact Nat.mul_le_mul_left _ (by omega)
  exact (ledTr_production h.2 checkP_check).mono (fun l q k hk => ⟨hk.1, key l k hk.2⟩) (fun l k hk => key l k hk)

theorem arith_formula : Arith tenv N Formula.precedences := by
  refine ⟨rfl, ?_⟩
  intro q hq g hg asts
  simp only [Formula.precedences, List.mem_cons, List.not_mem_nil, or_false] at hq
  rcases hq with rfl | rfl | rfl <;> simp only [List.mem_cons, List.not_mem_nil, or_false] at hg <;> subst hg
  · refine led_unaryLike (fun c l l' h => ?_) asts
    unfold Formula.unaryTr at h
    obtain ⟨a, -, h⟩ := Out.bind_eq_ok h
    obtain ⟨a, -, h⟩ := Out.bind_eq_ok h
    obtain ⟨a, -, h⟩ := Out.bind_eq_ok h
    obtain ⟨a, -, h⟩ := Out.bind_eq_ok h
    cases h; rfl
  · refine led_binaryLike (fun c l l' h => ?_) asts
    unfold Formula.mulDivTr at h
    obtain ⟨a, -, h⟩ := Out.bind_eq_ok h
    obtain ⟨a, -, h⟩ := Out.bind_eq_ok h
    obtain ⟨a, -, h⟩ := Out.bind_eq_ok h
    obtain ⟨a, -, h⟩ := Out.bind_eq_ok h
    obtain ⟨a, -, h⟩ := Out.bind_eq_ok h
    obtain ⟨a, -, h⟩ := Out.bind_eq_ok h
    repeat' split at h
    all_goals first | (cases h; rfl) | cases h
  · refine led_binaryLike (fun c l l' h => ?_) asts
    unfold Formula.addSubTr at h
    obtain ⟨a, -, h⟩ := Out.bind_eq_ok h
    obtain ⟨a, -, h⟩ := Out.bind_eq_ok h
    obtain ⟨a, -, h⟩ := Out.bind_eq_ok h
    obtain ⟨a, -, h⟩ := Out.bind_eq_ok h
    obtain ⟨a, -, h⟩ := Out.bind_eq_ok h
    obtain ⟨a, -, h⟩ := Out.bind_eq_ok h
    cases h; rfl

theorem rpn_binary_one {c : Ctx} {l l' : List Ast} (h : ToRpn.binaryTr c l = .ok (l', none)) : l'.length = 1 := by
  unfold ToRpn.binaryTr at h
  obtain ⟨a, -, h⟩ := Out.bind_eq_ok h
  obtain ⟨b, -, h⟩ := Out.bind_eq_ok h
  obtain ⟨d, -, h⟩ := Out.bind_eq_ok h
  obtain ⟨e, -, h⟩ := Out.bind_eq_ok h
  cases e with
  | none => cases h
  | some e =>
    obtain ⟨f, -, h⟩ := Out.bind_eq_ok h
    obtain ⟨f, -, h⟩ := Out.bind_eq_ok h
    cases f with
    | none => cases h
    | some f => cases h; rfl

theorem arith_toRpn : Arith tenv N ToRpn.precedences := by
  refine ⟨rfl, ?_⟩
  intro q hq g hg asts
  simp only [ToRpn.precedences, List.mem_cons, List.not_mem_nil, or_false] at hq
  rcases hq with rfl | rfl | rfl <;> simp only [List.mem_cons, List.not_mem_nil, or_false] at hg <;> subst hg
  · refine led_unaryLike (fun c l l' h => ?_) asts
    unfold ToRpn.unaryTr at h
    obtain ⟨a, -, h⟩ := Out.bind_eq_ok h
    split at h
    · obtain ⟨b, -, h⟩ := Out.bind_eq_ok h
      obtain ⟨b, -, h⟩ := Out.bind_eq_ok h
      obtain ⟨b, -, h⟩ := Out.bind_eq_ok h
      cases h; rfl
    · obtain ⟨b, -, h⟩ := Out.bind_eq_ok h
      obtain ⟨b, -, h⟩ := Out.bind_eq_ok h
      cases h; rfl
    · cases h
  · exact led_binaryLike (fun c l l' h => rpn_binary_one h) asts
  · exact led_binaryLike (fun c l l' h => rpn_binary_one h) asts

/-! ### The recursive part -/

/-- A part that may call the whole grammar again. Every AST on the stack has `T` calls in reserve; a byte pays for `A` calls. -/
def heavyB (n T A e h c : Nat) (Q : Nat → Nat → Prop) (a d : Nat) : Bounds where
  hit x s y t k := x + e ≤ y ∧ y ≤ n ∧ s ≤ t ∧ t + x ≤ s + y ∧ A * x ≤ A * y ∧ A * y ≤ A * n ∧ T * s ≤ T * t ∧ k + T * t + A * x + c ≤ A * y + T * s + h
  miss x k := x ≤ n → A * x ≤ A * n → Q x k
  stop x k := x ≤ n → A * x ≤ A * n → k = 0 ∨ k + A * x + d ≤ A * n + a
  zero _ _ _ := .inl rfl

variable {n T A r a : Nat}

theorem leaf_heavy {σ : LedSource} {B b e : Nat} {Q : Nat → Prop} (hA : A = T + r) (hr : B ≤ r) (ha : 10 * B + b + 50 ≤ a) :
    Implies σ (leafB n B b e Q) (heavyB n T A e b ((r - B) * e) (fun _ => Q) a 0) := by
  subst hA
  obtain ⟨r', rfl⟩ : ∃ r', r = B + r' := ⟨r - B, by omega⟩
  refine ⟨fun x s y t k _ _ h => ?_, fun x k _ h hx _ => h hx, fun x k _ h hx _ => ?_⟩
  · obtain ⟨h1, h2, h3, h4, h5⟩ := h
    obtain ⟨d, rfl⟩ : ∃ d, y = x + e + d := ⟨y - (x + e), by omega⟩
    obtain ⟨q, rfl⟩ : ∃ q, t = s + q := ⟨t - s, by omega⟩
    have h6 : T * q ≤ T * (e + d) := Nat.mul_le_mul_left _ (by omega)
    refine ⟨h1, h2, h3, h4, Nat.mul_le_mul_left _ (by omega), Nat.mul_le_mul_left _ h2, Nat.mul_le_mul_left _ (by omega), ?_⟩
    rw [show B + r' - B = r' by omega]
    simp only [Nat.mul_add, Nat.add_mul] at h5 h6 ⊢
    have := Nat.zero_le (r' * d)
    omega
  · right
    obtain ⟨d, rfl⟩ : ∃ d, n = x + d := ⟨n - x, by omega⟩
    have h5 := h hx
    simp only [Nat.mul_add, Nat.add_mul] at h5 ⊢
    have := Nat.zero_le (r' * d)
    have := Nat.zero_le (T * d)
    omega

open Lean.Parser.Tactic in
/-- Arithmetic with bounds. -/
macro "heavy" : tactic => `(tactic|
  (constructor
   all_goals
     intros
     simp only [tickB, seqB, nilB, altB, noneB, transB, optB, heavyB, failB, peekB, strSource, imp_false, Nat.mul_add, Nat.mul_one, Nat.mul_zero, Nat.add_zero, Nat.mul_sub] at *
     try casesm* _ ∧ _, ∃ _, _, _ ∨ _, False
   all_goals try subst_vars
   all_goals try simp only [Nat.mul_add, Nat.mul_one, Nat.mul_zero, Nat.add_zero] at *
   all_goals first | omega | (intros; first | omega | (refine ⟨?_, ?_, ?_, ?_, ?_, ?_, ?_, ?_⟩ <;> omega))))

variable {src : Bytes}

/-- The loop-free parts, as parts of the recursive grammar. -/
structure LedLeaves (src : Bytes) (tenv : TEnv) (N n T A : Nat) : Prop where
  unaries : LedG (strSource src) tenv N (heavyB n T A 0 4 0 (fun _ _ => False) 300 0) (Gram.star [Formula.unaryOperator])
  binary : LedG (strSource src) tenv N (heavyB n T A 1 7 (100 * n + 400) (fun _ k => k ≤ 3) 300 0) Formula.binaryOperator
  simple : LedG (strSource src) tenv N (heavyB n T A 1 0 0 (fun _ k => k ≤ 4 * n + 21) (5 * n + 310) 0) Formula.simpleExpression
  space : LedG (strSource src) tenv N (heavyB n T A 0 4 0 (fun _ _ => False) 300 0) (Gram.erased Formula.sp0)
  paren : ∀ cc : List Bytes, (∀ w, w ∈ cc → 0 < w.length) →
    LedG (strSource src) tenv N (heavyB n T A 1 1 (100 * n + 400 + 2 * T) (fun _ k => k ≤ 2) 61 0) (Gram.erased (.prim (charClass cc)))

theorem leaves (hn : n = src.length) (hA : A = T + r) (hr : 100 * (n + 5) + 2 * T ≤ r) : LedLeaves src tenv N n T A := by
  subst hn
  constructor
  · refine (led_unaries.mono (leaf_heavy hA (by omega) (Nat.le_refl _))).mono ?_
    heavy
  · refine (led_binaryOperator.mono (leaf_heavy hA (by omega) (Nat.le_refl _))).mono ?_
    heavy
  · refine (led_simpleExpression.mono (leaf_heavy hA (by omega) (Nat.le_refl _))).mono ?_
    heavy
  · refine (led_esp0.mono (leaf_heavy hA (by omega) (Nat.le_refl _))).mono ?_
    heavy
  · intro cc hcc
    refine (((led_erased (led_charClass hcc)).mono (b' := leafB src.length 1 1 1 fun k => k ≤ 2) (by bounds)).mono (leaf_heavy hA (by omega) (Nat.le_refl _))).mono ?_
    heavy

/-- What is known of `Indirect`. -/
def indirectB (n T A : Nat) : Bounds := heavyB n T A 1 0 (5 * n + 100) (fun _ k => k ≤ 10) (T + 5 * n + 400) (5 * n + 330)

/-- A loop over something that pays for itself. -/
theorem heavy_iterates {σ : LedSource} (hσ : σ.size = n) {q : Nat} : Iterates σ (heavyB n T A 1 0 0 (fun _ k => k ≤ q) a 0) (heavyB n T A 0 q 0 (fun _ _ => False) a 0) := by
  subst hσ
  constructor
  · intro x s k hx h
    have hA : A * x ≤ A * σ.size := Nat.mul_le_mul_left _ hx
    have := h hx hA
    simp only [heavyB]
    omega
  all_goals
    intros
    simp only [heavyB] at *
    omega

set_option maxRecDepth 8000 in
/-- The inner expression, given what `Indirect` does. -/
theorem led_inner (hn : n = src.length) (hl : LedLeaves src tenv N n T A) {name : Nat} (hi : LedG (strSource src) tenv N (indirectB n T A) (.indirect name)) (m m' : String) :
    LedG (strSource src) tenv N (heavyB n T A 1 11 0 (fun _ _ => False) (T + 5 * n + 390) 0)
      (.flatGroup [Gram.star [Formula.unaryOperator], .first [Formula.simpleExpression, .indirect name, .prim (errorP m)],
        Gram.star [Formula.binaryOperator, .first [.flatGroup [Gram.star [Formula.unaryOperator], .first [Formula.simpleExpression, .indirect name]], .prim (errorP m')]]]) := by
  unfold indirectB at hi
  have h1 := (ledG_first (by simp) (ledGa_cons hl.simple (ledGa_cons hi (ledGa_cons (led_errorP m) ledGa_nil)))).mono
    (b' := heavyB n T A 1 1 0 (fun _ _ => False) (T + 5 * n + 370) 0) (by heavy)
  have h2 := (ledG_first (by simp) (ledGa_cons hl.simple (ledGa_cons hi ledGa_nil))).mono
    (b' := heavyB n T A 1 1 0 (fun _ k => k ≤ 4 * n + 40) (T + 5 * n + 370) 0) (by heavy)
  have h3 := (ledG_flatGroup (ledGs_cons hl.unaries (ledGs_cons h2 ledGs_nil))).mono
    (b' := heavyB n T A 1 6 0 (fun x k => k + A * x ≤ A * n + 4 * n + 50) (T + 5 * n + 375) 0) (by heavy)
  have h4 := (ledG_first (by simp) (ledGa_cons h3 (ledGa_cons (led_errorP m') ledGa_nil))).mono
    (b' := heavyB n T A 1 7 0 (fun _ _ => False) (T + 5 * n + 376) 0) (by heavy)
  have h5 := (ledGs_cons hl.binary (ledGs_cons h4 ledGs_nil)).mono
    (b' := heavyB n T A 1 0 0 (fun _ k => k ≤ 3) (T + 5 * n + 380) 0) (by heavy)
  have h6 := (ledG_star h5 (heavy_iterates hn.symm)).mono
    (b' := heavyB n T A 0 4 0 (fun _ _ => False) (T + 5 * n + 381) 0) (by heavy)
  refine (ledG_flatGroup (ledGs_cons hl.unaries (ledGs_cons h1 (ledGs_cons h6 ledGs_nil)))).mono ?_
  heavy

theorem led_expression (hn : n = src.length) (hT : T = 28 * (n + 1)) (hl : LedLeaves src tenv N n T A) {name : Nat} (hi : LedG (strSource src) tenv N (indirectB n T A) (.indirect name))
    (m m' : String) {precs : List (List Gram × Bool)} (hp : Arith tenv N precs) :
    LedG (strSource src) tenv N (heavyB n T A 1 (12 + 2 * T) 0 (fun _ _ => False) (T + 5 * n + 395) 0)
      (.trans (.flatGroup [Gram.star [Formula.unaryOperator], .first [Formula.simpleExpression, .indirect name, .prim (errorP m)],
        Gram.star [Formula.binaryOperator, .first [.flatGroup [Gram.star [Formula.unaryOperator], .first [Formula.simpleExpression, .indirect name]], .prim (errorP m')]]])
        [.production precs Formula.checkG]) := by
  have h1 := trProduction hp n
  rw [← hT] at h1
  refine (ledG_trans (by simp) (led_inner hn hl hi m m') h1).mono ?_
  clear hT
  heavy

theorem led_grouped (hn : n = src.length) (hl : LedLeaves src tenv N n T A) {g : Gram}
    (hg : LedG (strSource src) tenv N (heavyB n T A 1 (12 + 2 * T) 0 (fun _ _ => False) (T + 5 * n + 395) 0) g) (m : String) :
    LedG (strSource src) tenv N (heavyB n T A 1 0 (5 * n + 101) (fun _ k => k ≤ 9) (T + 5 * n + 399) (5 * n + 330))
      (.flatGroup [Gram.erased (.prim (charClass [b! "("])), .first [.flatGroup [Gram.erased Formula.sp0, g, Gram.erased (.prim (charClass [b! ")"])),
        Gram.erased Formula.sp0], .prim (errorP m)]]) := by
  have h1 := (ledG_flatGroup (ledGs_cons hl.space (ledGs_cons hg (ledGs_cons (hl.paren [b! ")"] (by decide)) (ledGs_cons hl.space ledGs_nil))))).mono
    (b' := heavyB n T A 1 30 0 (fun x k => k + A * x ≤ A * n + 2 * T + 30) (2 * T + 5 * n + 420) 0) (by heavy)
  have h2 := (ledG_first (by simp) (ledGa_cons h1 (ledGa_cons (led_errorP m) ledGa_nil))).mono
    (b' := heavyB n T A 1 31 0 (fun _ _ => False) (2 * T + 5 * n + 421) 0) (by heavy)
  refine (ledG_flatGroup (ledGs_cons (hl.paren [b! "("] (by decide)) (ledGs_cons h2 ledGs_nil))).mono ?_
  heavy

/-- What `Indirect` does, when its target is a grouped expression. -/
theorem led_indirect {env : Env} (henv : ∀ name k, (tenv name k).plain = env name) (hn : n = src.length) (hT : T = 28 * (n + 1)) (hl : ∀ N, LedLeaves src tenv N n T A) {name : Nat}
    {m m' m'' : String} {precs : List (List Gram × Bool)} (hp : ∀ N, Arith tenv N precs)
    (hg : env name = .flatGroup [Gram.erased (.prim (charClass [b! "("])), .first [.flatGroup [Gram.erased Formula.sp0,
      .trans (.flatGroup [Gram.star [Formula.unaryOperator], .first [Formula.simpleExpression, .indirect name, .prim (errorP m)],
        Gram.star [Formula.binaryOperator, .first [.flatGroup [Gram.star [Formula.unaryOperator], .first [Formula.simpleExpression, .indirect name]], .prim (errorP m')]]])
        [.production precs Formula.checkG], Gram.erased (.prim (charClass [b! ")"])), Gram.erased Formula.sp0], .prim (errorP m'')]]) (N : Nat) :
    LedG (strSource src) tenv N (indirectB n T A) (.indirect name) := by
  induction N with
  | zero => intro m hm; omega
  | succ N ih =>
    have h1 := led_grouped hn (hl N) (led_expression hn hT (hl N) ih m m' (hp N)) m''
    rw [← hg] at h1
    refine (ledG_indirect henv h1).mono ?_
    unfold indirectB
    heavy

theorem led_program (hn : n = src.length) (hl : LedLeaves src tenv N n T A) {g : Gram}
    (hg : LedG (strSource src) tenv N (heavyB n T A 1 (12 + 2 * T) 0 (fun _ _ => False) (T + 5 * n + 395) 0) g) :
    LedG (strSource src) tenv N (heavyB n T A 0 (2 * T + 100) 0 (fun x k => k + A * x ≤ A * n + 2 * T + 100) (2 * T + 5 * n + 450) 0)
      (.flatGroup [.prim startP, Gram.erased Formula.sp0, g, .prim endS]) := by
  refine (ledG_flatGroup (ledGs_cons led_startP (ledGs_cons hl.space (ledGs_cons hg (ledGs_cons led_endS ledGs_nil))))).mono ?_
  heavy

/-- The calls for the whole text. -/
theorem calls_program {g : Gram} {T A : Nat} {src : Bytes} (h : LedG (strSource src) tenv (N + 1) (heavyB src.length T A 0 (2 * T + 100) 0 (fun x k => k + A * x ≤ A * src.length + 2 * T + 100) (2 * T + 5 * src.length + 450) 0) g)
    (tg : TGram) (htg : tg.plain = g) (log : Log) :
    callCount (tg.run tenv N (newStrCtx src) log).2.events ≤ callCount log.events + (A * src.length + 2 * T + 5 * src.length + 450) := by
  obtain ⟨k, h1, h2⟩ := h N (by omega) tg htg (newStrCtx src) ⟨rfl, rfl, rfl, Nat.zero_le _⟩ log
  have h3 : k ≤ A * src.length + 2 * T + 5 * src.length + 450 := by
    revert h2
    rcases (tg.run tenv N (newStrCtx src) log).1 with ⟨o, _ | e⟩ | _ | _ <;> intro h2
    · simp only [ResIn] at h2
      split at h2
      · obtain ⟨-, -, -, -, -, -, h5, -, h6⟩ := h2
        simp only [newStrCtx, List.length_nil, Nat.mul_zero] at h5 h6
        omega
      · have := h2 (Nat.zero_le _) (Nat.zero_le _)
        simp only [newStrCtx, Nat.mul_zero] at this
        omega
      · have := h2 (Nat.zero_le _) (Nat.zero_le _)
        simp only [newStrCtx, Nat.mul_zero] at this
        omega
    all_goals
      have := h2 (Nat.zero_le _) (Nat.zero_le _)
      simp only [newStrCtx, Nat.mul_zero] at this
      omega
  omega

end Takenoco
