import Verif.Lemmas.LedgerProduction
import Verif.Lemmas.LibTerms
import Verif.Lemmas.Utf8
import Verif.Model.Examples.ToRpn
import Mathlib.Tactic.CasesM
/-
The parser calls of the parts of the formula grammar without recursion.
-/
namespace Takenoco
open Spec Trace

variable {tenv : TEnv} {N : Nat}

/-- A string as a source. -/
def strSource (s : Bytes) : LedSource := ⟨s, none, s.length⟩

/-! ### Terminals -/

/-- A terminal that takes one character and puts one AST. -/
def charB (n : Nat) : Bounds where
  hit x s y t k := x < y ∧ y ≤ n ∧ t = s + 1 ∧ k = 0
  miss _ k := k = 0
  stop _ k := k = 0
  zero _ := rfl

/-- A terminal that takes nothing. -/
def peekB : Bounds where
  hit x s y t k := y = x ∧ t = s ∧ k = 0
  miss _ k := k = 0
  stop _ k := k = 0
  zero _ := rfl

/-- A terminal that fails. -/
def failB : Bounds where
  hit _ _ _ _ _ := False
  miss _ _ := False
  stop _ k := k = 0
  zero _ := rfl

variable {src : Bytes}

theorem led_charFn (cls cls' : String) (p : Nat → Bool) : LedG (strSource src) tenv N (tickB (charB src.length)) (.prim (lightParser cls (charFn cls' p))) := by
  refine ledG_prim fun c hc => ?_
  obtain ⟨h1, h2, h3, h4⟩ := hc
  simp only [strSource] at h1 h2 h4
  subst h1
  rw [charFn_eq _ _ _ _ h4]
  split
  next h =>
    have h5 := decodeRune_len_le (c.str.drop c.pos)
    have h6 : 0 < (decodeRune (c.str.drop c.pos)).2 := decodeRune_len_pos (by simp; omega)
    simp only [List.length_drop] at h5
    refine ⟨⟨rfl, h2, rfl, ?_⟩, ?_, ?_, ?_, rfl⟩ <;> simp [pushStr, strSource] <;> omega
  next => rfl

theorem led_charClass {cc : List Bytes} (hcc : ∀ w, w ∈ cc → 0 < w.length) :
    LedG (strSource src) tenv N (tickB (charB src.length)) (.prim (charClass cc)) := by
  refine ledG_prim fun c hc => ?_
  obtain ⟨h1, h2, h3, h4⟩ := hc
  simp only [strSource] at h1 h2 h4
  subst h1
  rw [charClass_eq]
  cases hf : cc.find? (fun s => hasPrefixAt s c) with
  | none => rfl
  | some w =>
    have h5 : c.pos + w.length ≤ c.str.length := hasPrefixAt_le (by have := List.find?_some hf; exact this)
    have h6 := hcc w (List.mem_of_find?_eq_some hf)
    refine ⟨⟨rfl, h2, rfl, ?_⟩, ?_, ?_, ?_, rfl⟩ <;> simp [tokenMatched, pushStr, strSource] <;> omega

theorem led_endS : LedG (strSource src) tenv N (tickB peekB) (.prim endS) := by
  refine ledG_prim fun c hc => ?_
  rw [endS_eq]
  split
  · exact ⟨⟨hc.1, hc.2.1, rfl, hc.2.2.2⟩, rfl, rfl, rfl⟩
  · rfl

theorem led_startP {σ : LedSource} : LedG σ tenv N (tickB peekB) (.prim startP) := by
  refine ledG_prim fun c hc => ?_
  rw [startP_eq]
  split
  · exact ⟨⟨hc.1, hc.2.1, rfl, hc.2.2.2⟩, rfl, rfl, rfl⟩
  · rfl

theorem led_errorP {σ : LedSource} (msg : String) : LedG σ tenv N (tickB failB) (.prim (errorP msg)) := by
  refine ledG_prim fun c hc => ?_
  rw [errorP_eq]
  exact rfl

theorem wordBoundaryFn_two (isW : Nat → Bool) (c : Ctx) (h : ¬ c.str.length < c.pos) :
    wordBoundaryFn isW c = .ok ({ c with len := 0, status := .matched }, none) ∨ wordBoundaryFn isW c = .ok ({ c with len := 0, status := .unmatched }, none) := by
  unfold wordBoundaryFn
  simp only [h, if_false]
  repeat' split
  all_goals first | exact .inl rfl | exact .inr rfl

theorem led_wordBoundary : LedG (strSource src) tenv N (tickB peekB) (.prim wordBoundary) := by
  refine ledG_prim fun c hc => ?_
  obtain ⟨h1, h2, h3, h4⟩ := hc
  have h : ¬ c.str.length < c.pos := by simp only [strSource] at h1 h4; rw [h1]; omega
  unfold wordBoundary lightParser
  rcases wordBoundaryFn_two isWord c h with h5 | h5 <;> rw [h5]
  · exact ⟨⟨h1, h2, rfl, h4⟩, rfl, rfl, rfl⟩
  · rfl

/-! ### Small parts -/

/-- A part that moves by at least `e`, puts at most as many ASTs as it takes bytes, and needs at most `B` calls for a byte and `b` more;
`Q` holds of the calls if it does not match. -/
def leafB (n B b e : Nat) (Q : Nat → Prop) : Bounds where
  hit x s y t k := x + e ≤ y ∧ y ≤ n ∧ s ≤ t ∧ t + x ≤ s + y ∧ k + B * x ≤ B * y + b
  miss x k := x ≤ n → Q k
  stop x k := x ≤ n → k + B * x ≤ B * n + (10 * B + b + 50)
  zero x h := by have := Nat.mul_le_mul_left B h; omega

open Lean.Parser.Tactic in
/-- Arithmetic with bounds. -/
macro "bounds" : tactic => `(tactic|
  (constructor
   all_goals
     intros
     simp only [tickB, seqB, nilB, altB, noneB, transB, optB, leafB, charB, peekB, failB, strSource, imp_false] at *
     casesm* _ ∧ _, ∃ _, _, _ ∨ _, False
   all_goals try subst_vars
   all_goals first | omega | (intros; first | omega | (refine ⟨?_, ?_, ?_, ?_, ?_⟩ <;> omega))))

theorem trErase : LedTr tenv N (fun _ q k => k = 0 ∧ q = 0) (fun _ k => k = 0) [.fn erase] :=
  ledTr_fn (fs := [erase]) fun c l l' h => by simp [applyTrs, erase] at h; simp [h]

theorem led_erased {σ : LedSource} {g : Gram} {b : Bounds} (h : LedG σ tenv N b g) :
    LedG σ tenv N (tickB (transB b (fun _ q k => k = 0 ∧ q = 0) (fun _ k => k = 0))) (Gram.erased g) := ledG_trans (by simp) h trErase

theorem led_sp0 : LedG (strSource src) tenv N (leafB src.length 1 3 0 fun _ => False) Formula.sp0 := by
  have h1 : LedGs (strSource src) tenv N _ [.prim whitespace] := ledGs_cons (led_charFn _ _ _) ledGs_nil
  have h2 := ledG_star h1 (b' := leafB src.length 1 1 0 fun _ => False) (by bounds)
  exact (led_erased h2).mono (by bounds)

theorem led_esp0 : LedG (strSource src) tenv N (leafB src.length 1 4 0 fun _ => False) (Gram.erased Formula.sp0) := (led_erased led_sp0).mono (by bounds)

theorem led_eraseUnderscore : LedG (strSource src) tenv N (leafB src.length 1 1 1 fun k => k ≤ 2) Extra.eraseUnderscore :=
  (led_erased (led_charClass (by decide))).mono (by bounds)

theorem led_number : LedG (strSource src) tenv N (leafB src.length 1 0 1 fun k => k ≤ 1) (.prim number) := (led_charFn _ _ _).mono (by bounds)

theorem led_digitOr : LedG (strSource src) tenv N (leafB src.length 4 0 1 fun k => k ≤ 4) Extra.digitOr_ :=
  (ledG_first (by simp) (ledGa_cons led_number (ledGa_cons led_eraseUnderscore ledGa_nil))).mono (by bounds)

theorem led_zeroLit : LedG (strSource src) tenv N (leafB src.length 4 4 1 fun k => k ≤ 2) Extra.zeroLit := by
  have h2 := ledG_star (ledGs_cons (σ := strSource src) (tenv := tenv) (N := N) led_eraseUnderscore ledGs_nil) (b' := leafB src.length 2 2 0 fun _ => False) (by bounds)
  exact (ledG_flatGroup (ledGs_cons (led_charClass (by decide)) (ledGs_cons h2 ledGs_nil))).mono (by bounds)

theorem led_digits : LedG (strSource src) tenv N (leafB src.length 4 5 1 fun k => k ≤ 2) Extra.digits := by
  have h2 := ledG_star (ledGs_cons (σ := strSource src) (tenv := tenv) (N := N) led_digitOr ledGs_nil) (b' := leafB src.length 4 4 0 fun _ => False) (by bounds)
  exact (ledG_flatGroup (ledGs_cons led_number (ledGs_cons h2 ledGs_nil))).mono (by bounds)

theorem length_concat {c : Ctx} {l l' : List Ast} (h : concat c l = .ok (l', none)) : l'.length = 1 := by
  unfold concat at h
  cases l with
  | nil => cases h; rfl
  | cons a l =>
    simp only at h
    split at h <;> cases h
    rfl

theorem length_rewriteHead {f : Ast → Ast} {c : Ctx} {l l' : List Ast} (h : rewriteHead f c l = .ok (l', none)) : l'.length = l.length := by
  cases l <;> cases h <;> rfl

theorem led_integerNumberStr : LedG (strSource src) tenv N (leafB src.length 4 12 1 fun k => k ≤ 4 * src.length + 12) Extra.integerNumberStr := by
  have h1 := ledG_opt (ledGs_cons (σ := strSource src) (tenv := tenv) (N := N) (led_charClass (cc := [b! "+", b! "-"]) (by decide)) ledGs_nil)
  have h2 := (ledG_first (by simp) (ledGa_cons (σ := strSource src) (tenv := tenv) (N := N) led_zeroLit (ledGa_cons led_digits ledGa_nil))).mono
    (b' := leafB src.length 4 8 1 fun k => k ≤ 5) (by bounds)
  have h3 := (ledG_flatGroup (ledGs_cons h1 (ledGs_cons h2 ledGs_nil))).mono (b' := leafB src.length 4 11 1 fun k => k ≤ 4 * src.length + 11) (by bounds)
  refine (ledG_trans (by simp) h3 (ledTr_fn (fs := [concat, changeClassName _]) (Q := fun l q => q = 1) ?_)).mono (by bounds)
  intro c l l' h
  simp only [applyTrs] at h
  split at h <;> first | cases h | skip
  rename_i h4
  split at h <;> first | cases h | skip
  rename_i h5
  rw [length_rewriteHead h5]
  exact length_concat h4

theorem led_numberG : LedG (strSource src) tenv N (leafB src.length 4 20 1 fun k => k ≤ 4 * src.length + 20) Formula.numberG := by
  have h3 := (ledG_flatGroup (ledGs_cons (σ := strSource src) (tenv := tenv) (N := N) led_integerNumberStr (ledGs_cons led_wordBoundary (ledGs_cons led_esp0 ledGs_nil)))).mono
    (b' := leafB src.length 4 19 1 fun k => k ≤ 4 * src.length + 19) (by bounds)
  refine (ledG_trans (by simp) h3 (ledTr_fn (fs := [Formula.numberTr]) (Q := fun l q => q = 1) ?_)).mono (by bounds)
  intro c l l' h
  simp only [applyTrs] at h
  split at h <;> first | cases h | skip
  rename_i h4
  unfold Formula.numberTr at h4
  repeat' split at h4
  all_goals first | cases h4 | skip
  rfl

theorem trClass (name : String) : LedTr tenv N (fun l q k => k = 0 ∧ q = l) (fun _ k => k = 0) [.fn (changeClassName name)] :=
  ledTr_fn (fs := [changeClassName name]) fun c l l' h => by
    simp only [applyTrs] at h
    split at h <;> first | cases h | skip
    rename_i h4
    exact length_rewriteHead h4

theorem led_unaryOperator : LedG (strSource src) tenv N (leafB src.length 1 7 1 fun k => k ≤ 3) Formula.unaryOperator := by
  have h3 := ledG_flatGroup (ledGs_cons (σ := strSource src) (tenv := tenv) (N := N) (led_charClass (cc := [b! "-"]) (by decide)) (ledGs_cons led_esp0 ledGs_nil))
  exact (ledG_trans (by simp) h3 (trClass _)).mono (by bounds)

theorem led_binaryOperator : LedG (strSource src) tenv N (leafB src.length 1 7 1 fun k => k ≤ 3) Formula.binaryOperator := by
  have h3 := ledG_flatGroup (ledGs_cons (σ := strSource src) (tenv := tenv) (N := N) (led_charClass (cc := [b! "+", b! "-", b! "*", b! "/"]) (by decide)) (ledGs_cons led_esp0 ledGs_nil))
  exact (ledG_trans (by simp) h3 (trClass _)).mono (by bounds)

theorem led_unaries : LedG (strSource src) tenv N (leafB src.length 8 4 0 fun _ => False) (Gram.star [Formula.unaryOperator]) :=
  (ledG_star (ledGs_cons (σ := strSource src) (tenv := tenv) (N := N) led_unaryOperator ledGs_nil) (b' := leafB src.length 8 3 0 fun _ => False) (by bounds)).mono (by bounds)

/-- The last iteration of the loop may parse a number in vain. -/
theorem led_simpleExpression : LedG (strSource src) tenv N (leafB src.length 20 (5 * src.length + 60) 1 fun k => k ≤ 4 * src.length + 21) Formula.simpleExpression := by
  have h1 := ledGs_cons (σ := strSource src) (tenv := tenv) (N := N) led_binaryOperator (ledGs_cons led_numberG ledGs_nil)
  have h2 := (ledG_star h1 (b' := leafB src.length 20 (5 * src.length + 30) 0 fun _ => False) (by bounds)).mono
    (b' := leafB src.length 20 (5 * src.length + 31) 0 fun _ => False) (by bounds)
  exact (ledG_flatGroup (ledGs_cons led_numberG (ledGs_cons h2 ledGs_nil))).mono (by bounds)

end Takenoco
