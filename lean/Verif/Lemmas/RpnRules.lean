import Verif.Lemmas.FormulaRules
/-
The production rules of the torpn example build postfix expressions.
-/
namespace Takenoco
open Spec

theorem rpnTok_notUnary {a : Ast} {t : Tok Rpn} (h : RpnTok a t) (ht : t ≠ .neg) : NotOp "UnaryOperator" [b! "-"] a := by
  cases t with
  | neg => exact absurd rfl ht
  | operand v => cases v <;> exact .inl (by rw [h.1]; decide)
  | bin op => exact .inl (by rw [h.1]; decide)

theorem rpnTok_notBinary {a : Ast} {t : Tok Rpn} {b : Bool} (h : RpnTok a t) (ht : ∀ op, op.tight = b → t ≠ .bin op) :
    NotOp "BinaryOperator" (opsOf b) a := by
  cases t with
  | neg => exact .inl (by rw [h.1]; decide)
  | operand v => cases v <;> exact .inl (by rw [h.1]; decide)
  | bin op => exact .inr ⟨_, h.2, opsOf_not_mem fun he => ht op he rfl⟩

noncomputable abbrev rpnB (t : Bool) : Sem := den ToRpn.env (binaryRuleOf (opsOf t) ToRpn.binaryTr)
noncomputable abbrev rpnU : Sem := den ToRpn.env (unaryRuleOf ToRpn.unaryTr)

theorem rpnUnary_ok {o a : Ast} {d : Rpn} (ho : RpnTok o .neg) (ha : RpnTok a (.operand d)) :
    ∃ y, RpnTok y (.operand d.neg) ∧ ∀ c, ToRpn.unaryTr c [o, a] = .ok ([y], none) := by
  cases d with
  | int v =>
    obtain ⟨h1, h2, h3⟩ := ha
    refine ⟨{ Ast.zero with ty := .int, cls := "Number", val := .int (int64Neg v) }, ⟨rfl, rfl, rfl⟩, fun c => ?_⟩
    simp [ToRpn.unaryTr, goGet, h2, h3, ho.2, asStr, Formula.asInt, BinOp.char, int64_neg]
  | list items =>
    obtain ⟨h1, h2, l, h3, h4⟩ := ha
    refine ⟨{ Ast.zero with ty := .listOfAst, cls := "List", val := .list (l ++ [o]) }, ⟨rfl, rfl, _, rfl, ?_⟩, fun c => ?_⟩
    · simp [h4, ho.2]
    · simp [ToRpn.unaryTr, goGet, h2, h3, ToRpn.asList]

theorem operandItems_ok {a : Ast} {d : Rpn} (ha : RpnTok a (.operand d)) :
    ∃ l, ToRpn.operandItems a = .ok (some l) ∧ l.map (·.val) = d.items := by
  cases d with
  | int v =>
    obtain ⟨h1, h2, h3⟩ := ha
    exact ⟨[a], by simp [ToRpn.operandItems, h2], by simp [h3, Rpn.items]⟩
  | list items =>
    obtain ⟨h1, h2, l, h3, h4⟩ := ha
    exact ⟨l, by simp [ToRpn.operandItems, h2, h3, ToRpn.asList], h4⟩

theorem rpnBinary_ok {a o b : Ast} {d e : Rpn} {op : BinOp} (ha : RpnTok a (.operand d)) (ho : RpnTok o (.bin op))
    (hb : RpnTok b (.operand e)) : ∃ y, RpnTok y (.operand (Rpn.bin op d e)) ∧ ∀ c, ToRpn.binaryTr c [a, o, b] = .ok ([y], none) := by
  obtain ⟨l, hl, hl'⟩ := operandItems_ok ha
  obtain ⟨r, hr, hr'⟩ := operandItems_ok hb
  refine ⟨{ Ast.zero with ty := .listOfAst, cls := "List", val := .list (l ++ r ++ [o]) }, ⟨rfl, rfl, _, rfl, ?_⟩, fun c => ?_⟩
  · simp only [List.map_append, hl', hr', List.map_cons, List.map_nil, ho.2]
  · simp [ToRpn.binaryTr, goGet, hl, hr, ho.2, asStr]

theorem rpn_evaluates (tag : Value) (x : Panic) :
    Evaluates RpnTok Rpn.neg (fun op a b => some (Rpn.bin op a b)) x tag rpnU rpnB (den ToRpn.env Formula.checkG) where
  u_idle l ts p h hp := inapplicable_of_misses (unaryRule_misses fun a ha => by
    obtain ⟨t, h1, h2⟩ := (toks_get h p).2 a ha
    exact rpnTok_notUnary h2 fun ht => hp (ht ▸ h1))
  u_step l ts p d h h1 h2 := by
    obtain ⟨o, ho, ho'⟩ := (toks_get h p).1 _ h1
    obtain ⟨a, ha, ha'⟩ := (toks_get h (p + 1)).1 _ h2
    obtain ⟨y, hy, hf⟩ := rpnUnary_ok ho' ha'
    obtain ⟨r, h3, h4, h5, h6⟩ := applies_of_hits (tag := tag) (otrans_hits (unaryRule_inner (env := ToRpn.env) ho ho'.1 ho'.2 ha) hf)
    exact ⟨r, _, h3, h4, h5, h6, hy⟩
  b_idle t l ts p h hp := inapplicable_of_misses (binaryRule_misses fun a ha => by
    obtain ⟨t', h1, h2⟩ := (toks_get h (p + 1)).2 a ha
    exact rpnTok_notBinary h2 fun op ho he => hp op ho (he ▸ h1))
  b_step l ts p d op e h h1 h2 h3 := by
    obtain ⟨a, ha, ha'⟩ := (toks_get h p).1 _ h1
    obtain ⟨o, ho, ho'⟩ := (toks_get h (p + 1)).1 _ h2
    obtain ⟨b, hb, hb'⟩ := (toks_get h (p + 2)).1 _ h3
    obtain ⟨y, hy, hf⟩ := rpnBinary_ok ha' ho' hb'
    refine ⟨fun v hv => ?_, fun hv => (by cases hv)⟩
    cases hv
    obtain ⟨r, h4, h5, h6, h7⟩ := applies_of_hits (tag := tag)
      (otrans_hits (binaryRule_inner (env := ToRpn.env) ha ho ho'.1 ho'.2 (opsOf_mem op) hb) hf)
    exact ⟨r, _, h4, h5, h6, h7, hy⟩
  accepts l h := checkG_accepts h
  declines l h := checkG_declines h

/-- Nothing goes wrong. -/
theorem products_total {D : Type} (f : BinOp → D → D → D) (d : D) (r : List (BinOp × D)) :
    ∃ s, products (fun op a b => some (f op a b)) d r = some s := by
  induction r generalizing d with
  | nil => exact ⟨_, rfl⟩
  | cons y ys ih =>
    obtain ⟨op, e⟩ := y
    simp only [products]
    split
    · exact ih _
    · obtain ⟨s, hs⟩ := ih e
      exact ⟨_, by rw [hs]; rfl⟩

theorem fromLeft_total {D : Type} (f : BinOp → D → D → D) (d : D) (r : List (BinOp × D)) :
    ∃ s, fromLeft (fun op a b => some (f op a b)) d r = some s := by
  induction r generalizing d with
  | nil => exact ⟨_, rfl⟩
  | cons y ys ih => exact ih _

theorem chainValue_total {D : Type} (neg : D → D) (f : BinOp → D → D → D) (x : Signed D) (rest : List (BinOp × Signed D)) :
    ∃ v, chainValue neg (fun op a b => some (f op a b)) x rest = some v := by
  unfold chainValue
  obtain ⟨s, hs⟩ := products_total f (applySigns neg x.1 x.2) (rest.map fun y => (y.1, applySigns neg y.2.1 y.2.2))
  rw [hs]
  exact fromLeft_total f _ _

theorem rpnTr_gives (c : Ctx) (l : List Ast) (x : Signed Rpn) (rest : List (BinOp × Signed Rpn)) (h : Toks RpnTok l (chainToks x rest)) :
    ∃ v y, chainValue Rpn.neg (fun op a b => some (Rpn.bin op a b)) x rest = some v ∧ RpnTok y (.operand v) ∧
      denTr ToRpn.env ToRpn.formulaProductionRules c l = .ok ([y], none) := by
  obtain ⟨v, hv⟩ := chainValue_total Rpn.neg Rpn.bin x rest
  have := denTr_gives (env := ToRpn.env) (u := unaryRuleOf ToRpn.unaryTr) (b := fun t => binaryRuleOf (opsOf t) ToRpn.binaryTr)
    (eval_chain (rpn_evaluates c.tag .divZero) l.length l x rest (Nat.le_refl _) h)
  obtain ⟨y, h1, h2⟩ := this.1 v hv
  exact ⟨v, y, hv, h1, h2⟩

end Takenoco
