import Verif.Lemmas.ObjLogic
/-
The production rules of the formula example evaluate tokens.
-/
namespace Takenoco
open Spec

theorem int64_neg (a : Int64) : -a = int64Neg a := by
  apply Int64.toInt_inj.1
  simp [int64Neg, Int64.toInt_neg]
theorem int64_add (a b : Int64) : a + b = Int64.ofInt (a.toInt + b.toInt) := by
  apply Int64.toInt_inj.1
  simp [Int64.toInt_add]
theorem int64_sub (a b : Int64) : a - b = Int64.ofInt (a.toInt - b.toInt) := by
  apply Int64.toInt_inj.1
  simp [Int64.toInt_sub]
theorem int64_mul (a b : Int64) : a * b = Int64.ofInt (a.toInt * b.toInt) := by
  apply Int64.toInt_inj.1
  simp [Int64.toInt_mul]
theorem int64_div (a b : Int64) : a / b = Int64.ofInt (a.toInt.tdiv b.toInt) := by
  apply Int64.toInt_inj.1
  simp [Int64.toInt_div]

theorem toks_get {D : Type} {Is : Ast → Tok D → Prop} {l : List Ast} {ts : List (Tok D)} (h : Toks Is l ts) (p : Nat) :
    (∀ t, ts[p]? = some t → ∃ a, l[p]? = some a ∧ Is a t) ∧ (∀ a, l[p]? = some a → ∃ t, ts[p]? = some t ∧ Is a t) := by
  induction h generalizing p with
  | nil => simp
  | cons h1 _ ih =>
    cases p with
    | zero => simp [h1]
    | succ p => simpa using ih p

theorem numTok_notUnary {a : Ast} {t : Tok Int64} (h : NumTok a t) (ht : t ≠ .neg) : NotOp "UnaryOperator" [b! "-"] a := by
  cases t with
  | neg => exact absurd rfl ht
  | operand v => exact .inl (by rw [h.1]; decide)
  | bin op => exact .inl (by rw [h.1]; decide)

/-- The operators of a precedence. -/
def opsOf : Bool → List Bytes
  | true => [b! "*", b! "/"]
  | false => [b! "+", b! "-"]

theorem opsOf_mem (op : BinOp) : [op.char] ∈ opsOf op.tight := by cases op <;> decide
theorem opsOf_not_mem {op : BinOp} {t : Bool} (h : op.tight ≠ t) : [op.char] ∉ opsOf t := by
  cases op <;> cases t <;> first | exact absurd rfl h | decide

theorem numTok_notBinary {a : Ast} {t : Tok Int64} {b : Bool} (h : NumTok a t) (ht : ∀ op, op.tight = b → t ≠ .bin op) :
    NotOp "BinaryOperator" (opsOf b) a := by
  cases t with
  | neg => exact .inl (by rw [h.1]; decide)
  | operand v => exact .inl (by rw [h.1]; decide)
  | bin op => exact .inr ⟨_, h.2, opsOf_not_mem fun he => ht op he rfl⟩

/-- The rule of a precedence in the formula example. -/
def formulaBinary : Bool → TSem
  | true => Formula.mulDivTr
  | false => Formula.addSubTr

noncomputable abbrev formulaB (t : Bool) : Sem := den Formula.env (binaryRuleOf (opsOf t) (formulaBinary t))
noncomputable abbrev formulaU : Sem := den Formula.env (unaryRuleOf Formula.unaryTr)

theorem formulaBinary_ok {a o b : Ast} {d e : Int64} {op : BinOp} (ha : a.val = .int d) (ho : o.val = .str [op.char])
    (hb : b.val = .int e) (c : Ctx) :
    (∀ v, int64Op op d e = some v → formulaBinary op.tight c [a, o, b] = .ok ([Formula.numAst v], none)) ∧
    (int64Op op d e = none → formulaBinary op.tight c [a, o, b] = .panic .divZero) := by
  cases op with
  | add =>
    refine ⟨fun v hv => ?_, fun hv => (by cases hv)⟩
    cases hv
    rw [← int64_add]
    simp [formulaBinary, BinOp.tight, Formula.addSubTr, goGet, ha, hb, ho, asStr, Formula.asInt, BinOp.char]
  | sub =>
    refine ⟨fun v hv => ?_, fun hv => (by cases hv)⟩
    cases hv
    rw [← int64_sub]
    simp [formulaBinary, BinOp.tight, Formula.addSubTr, goGet, ha, hb, ho, asStr, Formula.asInt, BinOp.char]
  | mul =>
    refine ⟨fun v hv => ?_, fun hv => (by cases hv)⟩
    cases hv
    rw [← int64_mul]
    simp [formulaBinary, BinOp.tight, Formula.mulDivTr, goGet, ha, hb, ho, asStr, Formula.asInt, BinOp.char]
  | div =>
    by_cases h0 : e = 0
    · refine ⟨fun v hv => ?_, fun _ => ?_⟩
      · simp [int64Op, h0] at hv
      · simp [formulaBinary, BinOp.tight, Formula.mulDivTr, goGet, ha, hb, ho, asStr, Formula.asInt, BinOp.char, h0]
    · refine ⟨fun v hv => ?_, fun hv => ?_⟩
      · simp [int64Op, h0] at hv
        rw [← hv, ← int64_div]
        simp [formulaBinary, BinOp.tight, Formula.mulDivTr, goGet, ha, hb, ho, asStr, Formula.asInt, BinOp.char, h0]
      · simp [int64Op, h0] at hv

theorem formula_evaluates (tag : Value) :
    Evaluates NumTok int64Neg int64Op .divZero tag formulaU formulaB (den Formula.env Formula.checkG) where
  u_idle l ts p h hp := inapplicable_of_misses (unaryRule_misses fun a ha => by
    obtain ⟨t, h1, h2⟩ := (toks_get h p).2 a ha
    exact numTok_notUnary h2 fun ht => hp (ht ▸ h1))
  u_step l ts p d h h1 h2 := by
    obtain ⟨o, ho, ho'⟩ := (toks_get h p).1 _ h1
    obtain ⟨a, ha, ha'⟩ := (toks_get h (p + 1)).1 _ h2
    have hit : OHits formulaU l p 2 [Formula.numAst (int64Neg d)] := by
      refine otrans_hits (unaryRule_inner ho ho'.1 ho'.2 ha) fun c => ?_
      simp [Formula.unaryTr, goGet, ho'.2, ha'.2, asStr, Formula.asInt, BinOp.char, int64_neg]
    obtain ⟨r, h3, h4, h5, h6⟩ := applies_of_hits (tag := tag) hit
    exact ⟨r, _, h3, h4, h5, h6, rfl, rfl⟩
  b_idle t l ts p h hp := inapplicable_of_misses (binaryRule_misses fun a ha => by
    obtain ⟨t', h1, h2⟩ := (toks_get h (p + 1)).2 a ha
    exact numTok_notBinary h2 fun op ho he => hp op ho (he ▸ h1))
  b_step l ts p d op e h h1 h2 h3 := by
    obtain ⟨a, ha, ha'⟩ := (toks_get h p).1 _ h1
    obtain ⟨o, ho, ho'⟩ := (toks_get h (p + 1)).1 _ h2
    obtain ⟨b, hb, hb'⟩ := (toks_get h (p + 2)).1 _ h3
    have hi := binaryRule_inner (env := Formula.env) ha ho ho'.1 ho'.2 (opsOf_mem op) hb
    refine ⟨fun v hv => ?_, fun hv => ?_⟩
    · obtain ⟨r, h4, h5, h6, h7⟩ := applies_of_hits (tag := tag) (otrans_hits hi fun c => (formulaBinary_ok ha'.2 ho'.2 hb'.2 c).1 v hv)
      exact ⟨r, _, h4, h5, h6, h7, rfl, rfl⟩
    · exact panics_of_panics (otrans_panics hi fun c => (formulaBinary_ok ha'.2 ho'.2 hb'.2 c).2 hv)
  accepts l h := checkG_accepts h
  declines l h := checkG_declines h

/-- The production rule with these rules, evaluated in a grammar. -/
theorem denTr_gives {D : Type} {Is : Ast → Tok D → Prop} {x : Panic} {env : Env} {u : Gram} {b : Bool → Gram} {check : Gram} {c : Ctx}
    {l : List Ast} {r : Option D} (h : Gives Is x c.tag (den env u) (fun t => den env (b t)) (den env check) l r) :
    (∀ v, r = some v → ∃ y, Is y (.operand v) ∧
      denTr env (.production [([u], true), ([b true], false), ([b false], false)] check) c l = .ok ([y], none)) ∧
    (r = none → denTr env (.production [([u], true), ([b true], false), ([b false], false)] check) c l = .panic x) := by
  refine ⟨fun v hv => ?_, fun hv => ?_⟩
  · subst hv
    obtain ⟨y, h1, h2⟩ := h
    obtain ⟨N, hN⟩ := productionLoop_of h2
    refine ⟨y, h1, ?_⟩
    have h3 : productionRule N (([([u], true), ([b true], false), ([b false], false)] : List (List Gram × Bool)).map fun p => (p.1.map (den env), p.2))
        (den env check) c l = .ok ([y], none) := hN N (Nat.le_refl _)
    rw [denTr_production_of env _ check c l N (by rw [h3]; intro h; cases h), h3]
  · subst hv
    obtain ⟨N, hN⟩ := productionLoop_panics h
    have h3 : productionRule N (([([u], true), ([b true], false), ([b false], false)] : List (List Gram × Bool)).map fun p => (p.1.map (den env), p.2))
        (den env check) c l = .panic x := hN N (Nat.le_refl _)
    rw [denTr_production_of env _ check c l N (by rw [h3]; intro h; cases h), h3]

theorem formulaTr_gives (c : Ctx) (l : List Ast) (x : Signed Int64) (rest : List (BinOp × Signed Int64))
    (h : Toks NumTok l (chainToks x rest)) :
    (∀ v, chainValue int64Neg int64Op x rest = some v →
      ∃ y, NumTok y (.operand v) ∧ denTr Formula.env Formula.formulaProductionRules c l = .ok ([y], none)) ∧
    (chainValue int64Neg int64Op x rest = none → denTr Formula.env Formula.formulaProductionRules c l = .panic .divZero) :=
  denTr_gives (u := unaryRuleOf Formula.unaryTr) (b := fun t => binaryRuleOf (opsOf t) (formulaBinary t))
    (eval_chain (formula_evaluates c.tag) l.length l x rest (Nat.le_refl _) h)

/-- From the limit to executions with enough fuel. -/
theorem runTr_of_den {env : Env} {t : Tr} {c : Ctx} {l : List Ast} {r : Out (List Ast × Option Err)} (h : denTr env t c l = r)
    (hr : r ≠ .timeout) : ∃ N, ∀ n, N ≤ n → runTr env n t c l = r := by
  rcases denTr_lim env t c l with hd | ⟨N, hN⟩
  · exact absurd (h ▸ hd) hr
  · exact ⟨N, fun n hn => by rw [← h]; exact hN n hn⟩

theorem run_of_den {env : Env} {g : Gram} {c : Ctx} {r : Out PRes} (h : den env g c = r) (hr : r ≠ .timeout) :
    ∃ N, ∀ n, N ≤ n → run env n g c = r := by
  rcases den_lim env g c with hd | ⟨N, hN⟩
  · exact absurd (h ▸ hd) hr
  · exact ⟨N, fun n hn => by rw [← h]; exact hN n hn⟩

end Takenoco
