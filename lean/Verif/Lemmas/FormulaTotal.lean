import Verif.Lemmas.Total
import Verif.Lemmas.FormulaText
import Verif.Props.Combinators
/-
What the grammar of the formula and torpn examples can do on any text.
-/
namespace Takenoco
open Spec Formula

section
variable {env : Env} {n : Nat} {X : Panic → Prop}

theorem sp0_total : Total n X 0 (· = []) (den env (Gram.erased sp0)) :=
  erased_total (erased_total (star_total (gs := [.prim whitespace]) (SeqTotal.single (charTerminal_total C18_whitespace)) (by omega)))

theorem integer_total : Total n X 1 (fun l => ∃ a s, l = [a] ∧ a.val = .str s) (den env Extra.integerNumberStr) := by
  have h : Total n X 1 (fun l => ∃ vs, Texts l vs) (den env (.flatGroup [Gram.opt [Extra.plusMinus], .first [Extra.zeroLit, Extra.digits]])) := by
    intro c pre s hc hs
    by_cases hd : StartsWith isDec (s.drop (signRun s).length)
    · obtain ⟨m, h1, h2⟩ := lexInteger_some hd
      obtain ⟨h3, h4⟩ := (lexes_integer (env := env) pre s).1 m h1
      obtain ⟨c', h5, h6⟩ := h4 c (by simpa using hc)
      rw [h5]
      refine ⟨_, _, (List.take_append_drop m s).symm, ?_, h6.mono fun l hl => ⟨_, hl.choose_spec.1⟩⟩
      rw [h2]
      obtain ⟨b, s', he, hb⟩ := hd
      rw [he]
      simp only [List.length_append]
      have : 0 < (natRun (b :: s')).length := by
        unfold natRun
        split
        · simp
        · rename_i heq
          unfold digitRun
          rw [List.takeWhile_cons, if_pos (by unfold or_; simp [hb])]; simp
      omega
    · rw [(lexes_integer (env := env) pre s).2 (lexInteger_none hd) c hc]; trivial
  refine trans_total (by simp) h fun c l hl => ?_
  obtain ⟨vs, hv⟩ := hl
  obtain ⟨l', f1, a, f2, f3, f4, f5, _⟩ := concat_named (env := env) (name := ":extra:IntegerNumberStr") c l hv
  rw [f1]
  exact ⟨a, _, f2, f5⟩

theorem number_total : Total n X 1 (fun l => ∃ a v, l = [a] ∧ NumberAst v a) (den env numberG) := by
  have h := flat_total (env := env) (gs := [Extra.integerNumberStr, .prim wordBoundary, Gram.erased sp0])
    (SeqTotal.cons (n := n) (X := X) integer_total fun _ => SeqTotal.cons wordBoundary_total fun _ => SeqTotal.single sp0_total)
  refine trans_total (by simp) h fun c l hl => ?_
  obtain ⟨x, y, rfl, ⟨a, s, rfl, ha⟩, y1, y2, rfl, rfl, rfl⟩ := hl
  simp only [List.map, denTr_fn, applyTrs, numberTr, List.append_nil, ha, asStr]
  cases parseInt s 10 with
  | error e => trivial
  | ok v => exact ⟨_, Int64.ofInt v, rfl, rfl, rfl, rfl⟩

theorem operator_total {cc : List Bytes} (hcc : ∀ x ∈ cc, 1 ≤ x.length) {name : String} :
    Total n X 1 (fun l => ∃ a w, l = [a] ∧ w ∈ cc ∧ a.cls = name ∧ a.val = .str w)
      (den env (.trans (.flatGroup [.prim (charClass cc), Gram.erased sp0]) [.fn (changeClassName name)])) := by
  have h := flat_total (env := env) (gs := [.prim (charClass cc), Gram.erased sp0])
    (SeqTotal.cons (n := n) (X := X) (charClass_total hcc) fun _ => SeqTotal.single sp0_total)
  refine trans_total (by simp) h fun c l hl => ?_
  obtain ⟨x, y, rfl, ⟨w, hw, hx⟩, rfl⟩ := hl
  cases hx with
  | @cons a l v vs h4 h5 h6 =>
    cases h6
    simp only [List.map, denTr_fn, applyTrs, changeClassName, rewriteHead, List.append_nil]
    exact ⟨_, w, rfl, hw, rfl, h5⟩

theorem unary_total : Total n X 1 (fun l => ∃ a, l = [a] ∧ OpAst "UnaryOperator" 0x2d a) (den env unaryOperator) :=
  (operator_total (cc := [b! "-"]) (by decide)).mono (Nat.le_refl _) fun l hl => by
    obtain ⟨a, w, h1, h2, h3, h4⟩ := hl
    simp only [List.mem_singleton] at h2
    exact ⟨a, h1, h3, by rw [h4, h2]⟩

theorem binary_total : Total n X 1 (fun l => ∃ a op, l = [a] ∧ OpAst "BinaryOperator" (BinOp.char op) a) (den env binaryOperator) :=
  (operator_total (cc := [b! "+", b! "-", b! "*", b! "/"]) (by decide)).mono (Nat.le_refl _) fun l hl => by
    obtain ⟨a, w, h1, h2, h3, h4⟩ := hl
    simp only [List.mem_cons, List.not_mem_nil, or_false] at h2
    rcases h2 with rfl | rfl | rfl | rfl
    · exact ⟨a, .add, h1, h3, h4⟩
    · exact ⟨a, .sub, h1, h3, h4⟩
    · exact ⟨a, .mul, h1, h3, h4⟩
    · exact ⟨a, .div, h1, h3, h4⟩

end

section
variable {D : Type} {tr : Tr} {Is : Ast → Tok D → Prop} {num : Int64 → D} {neg : D → D} {bin : BinOp → D → D → Option D}
  {n : Nat} {X : Panic → Prop}

variable (Is) in
/-- One operand. -/
def Opnd (l : List Ast) : Prop := ∃ a d, l = [a] ∧ Is a (.operand d)

variable (Is) in
/-- Operands with signs, separated by operators. -/
def ChainToks (l : List Ast) : Prop := ∃ (x : Signed D) (rest : List (BinOp × Signed D)), Toks Is l (chainToks x rest)

variable (Is) in
/-- Operands without signs before the first one. -/
def PlainToks (l : List Ast) : Prop := ∃ (d : D) (rest : List (BinOp × Signed D)), Toks Is l (chainToks (0, d) rest)

variable (Is) in
def RestToks (l : List Ast) : Prop := ∃ rest : List (BinOp × Signed D), Toks Is l (rest.flatMap fun y => .bin y.1 :: y.2.toks)

theorem plain_of_opnd {l : List Ast} (h : Opnd Is l) : PlainToks Is l := by
  obtain ⟨a, d, rfl, h⟩ := h
  exact ⟨d, [], .cons h .nil⟩

theorem plain_rest {l l' : List Ast} (h : PlainToks Is l) (h' : RestToks Is l') : PlainToks Is (l ++ l') := by
  obtain ⟨d, r, h⟩ := h
  obtain ⟨r', h'⟩ := h'
  refine ⟨d, r ++ r', ?_⟩
  have := h.append h'
  simpa [chainToks, List.flatMap_append] using this

theorem chain_rest {l l' : List Ast} (h : ChainToks Is l) (h' : RestToks Is l') : ChainToks Is (l ++ l') := by
  obtain ⟨d, r, h⟩ := h
  obtain ⟨r', h'⟩ := h'
  refine ⟨d, r ++ r', ?_⟩
  have := h.append h'
  simpa [chainToks, List.flatMap_append] using this

theorem rest_many {m : Nat} {l : List Ast} (h : Many (RestToks Is) m l) : RestToks Is l := by
  induction h with
  | zero => exact ⟨[], .nil⟩
  | succ h _ ih =>
    obtain ⟨r, h⟩ := h
    obtain ⟨r', h'⟩ := ih
    exact ⟨r ++ r', by rw [List.flatMap_append]; exact h.append h'⟩

theorem rest_cons {a : Ast} {op : BinOp} {l : List Ast} (ha : Is a (.bin op)) (h : ChainToks Is l) : RestToks Is (a :: l) := by
  obtain ⟨x, r, h⟩ := h
  exact ⟨(op, x) :: r, by simpa [chainToks] using Toks.cons ha h⟩

theorem signs_chain {m : Nat} {l l' : List Ast} (hneg : ∀ a, OpAst "UnaryOperator" 0x2d a → Is a .neg)
    (h : Many (fun l => ∃ a, l = [a] ∧ OpAst "UnaryOperator" 0x2d a) m l) (h' : PlainToks Is l') : ChainToks Is (l ++ l') := by
  obtain ⟨d, r, h'⟩ := h'
  refine ⟨(m, d), r, ?_⟩
  induction h with
  | zero => exact h'
  | succ h _ ih =>
    obtain ⟨a, rfl, ha⟩ := h
    have := Toks.cons (hneg a ha) ih
    simpa [chainToks, Signed.toks, List.replicate_succ] using this

theorem simple_total (hR : RulesFor tr Is num neg bin) : Total n X 1 (PlainToks Is) (den (envOf tr) simpleExpression) := by
  have hb := SeqTotal.cons (n := n) (X := X) (binary_total (env := envOf tr)) fun _ => SeqTotal.single (number_total (env := envOf tr))
  have h := flat_total (env := envOf tr) (gs := [numberG, Gram.star [binaryOperator, numberG]])
    (SeqTotal.cons (n := n) (X := X) number_total fun _ => SeqTotal.single
      ((star_total (gs := [binaryOperator, numberG]) hb (by omega)).weak (by omega)))
  refine h.mono (by omega) fun l hl => ?_
  obtain ⟨x, y, rfl, ⟨a, v, rfl, ha⟩, m, hm⟩ := hl
  refine plain_rest (plain_of_opnd ⟨a, _, rfl, hR.num_tok a v ha⟩) (rest_many (hm.mono fun l hl => ?_))
  obtain ⟨x, y, rfl, ⟨a, op, rfl, ha⟩, b, v, rfl, hb⟩ := hl
  exact rest_cons (hR.bin_tok a op ha) ⟨(0, num v), [], .cons (hR.num_tok b v hb) .nil⟩

/-- The inside of an expression, if that of a group is known. -/
theorem inner_total (hR : RulesFor tr Is num neg bin) (hG : Total n X 1 (Opnd Is) (den (envOf tr) (.indirect groupedName))) :
    Total n X 1 (ChainToks Is) (den (envOf tr) expressionInner) := by
  have hu : Total n X 0 _ (den (envOf tr) (Gram.star [unaryOperator])) :=
    star_total (gs := [unaryOperator]) (SeqTotal.single unary_total) (by omega)
  have hf : ∀ gs, (∀ g ∈ gs, g = .indirect groupedName ∨ g = .prim (errorP "Value required")) →
      Total n X 1 (PlainToks Is) (den (envOf tr) (.first (simpleExpression :: gs))) := fun gs hgs =>
    first_total (by simp) fun g hg => by
      rcases List.mem_cons.1 hg with rfl | hg
      · exact simple_total hR
      · rcases hgs g hg with rfl | rfl
        · exact hG.mono (Nat.le_refl _) fun _ => plain_of_opnd
        · exact errorP_total _
  have h1 : Total n X 1 (ChainToks Is) (den (envOf tr) (.flatGroup [Gram.star [unaryOperator], .first [simpleExpression, .indirect groupedName]])) := by
    refine (flat_total (gs := [Gram.star [unaryOperator], .first [simpleExpression, .indirect groupedName]])
      (SeqTotal.cons hu fun _ => SeqTotal.single (hf [.indirect groupedName] (by simp)))).mono (by omega) fun l hl => ?_
    obtain ⟨x, y, rfl, ⟨m, hm⟩, hy⟩ := hl
    exact signs_chain hR.neg_tok hm hy
  have h2 : Total n X 1 (ChainToks Is) (den (envOf tr) (.first [.flatGroup [Gram.star [unaryOperator], .first [simpleExpression, .indirect groupedName]],
      .prim (errorP "Error in the expression after the binary operator")])) :=
    first_total (by simp) fun g hg => by
      simp only [List.mem_cons, List.not_mem_nil, or_false] at hg
      rcases hg with rfl | rfl
      · exact h1
      · exact errorP_total _
  have h3 := star_total (env := envOf tr) (gs := [binaryOperator, .first [.flatGroup [Gram.star [unaryOperator], .first [simpleExpression, .indirect groupedName]],
      .prim (errorP "Error in the expression after the binary operator")]]) (SeqTotal.cons (n := n) (X := X) binary_total fun _ => SeqTotal.single (h2.weak (by omega))) (by omega)
  have h4 := flat_total (env := envOf tr) (gs := [Gram.star [unaryOperator], .first [simpleExpression, .indirect groupedName, .prim (errorP "Value required")], _])
    (SeqTotal.cons hu fun _ => SeqTotal.cons (hf [.indirect groupedName, .prim (errorP "Value required")] (by simp)) fun _ => SeqTotal.single (h3.weak (by omega)))
  refine h4.mono (by omega) fun l hl => ?_
  obtain ⟨x, y, rfl, ⟨m, hm⟩, z, w, rfl, hz, m', hm'⟩ := hl
  rw [← List.append_assoc]
  refine chain_rest (signs_chain hR.neg_tok hm hz) (rest_many (hm'.mono fun l hl => ?_))
  obtain ⟨x, y, rfl, ⟨a, op, rfl, ha⟩, hy⟩ := hl
  exact rest_cons (hR.bin_tok a op ha) hy

theorem expression_total_of (hR : RulesFor tr Is num neg bin) (hX : ∀ x rest, chainValue neg bin x rest = none → X .divZero)
    (hG : Total n X 1 (Opnd Is) (den (envOf tr) (.indirect groupedName))) : Total n X 1 (Opnd Is) (den (envOf tr) (expressionOf tr)) :=
  trans_total (by simp) (inner_total hR hG) fun c l hl => by
    obtain ⟨x, rest, h⟩ := hl
    obtain ⟨h1, h2⟩ := hR.gives c l x rest h
    cases hv : chainValue neg bin x rest with
    | none => simp only [List.map, applyTrs, h2 hv]; exact hX x rest hv
    | some v =>
      obtain ⟨y, h3, h4⟩ := h1 v hv
      simp only [List.map, applyTrs, h4]
      exact ⟨y, v, rfl, h3⟩

theorem grouped_total (hR : RulesFor tr Is num neg bin) (hX : ∀ x rest, chainValue neg bin x rest = none → X .divZero) (n : Nat) :
    Total n X 1 (Opnd Is) (den (envOf tr) (.indirect groupedName)) := by
  induction n with
  | zero =>
    refine indirect_total (i := groupedName) ?_
    refine (flat_total (gs := [Gram.erased (.prim (charClass [b! "("])), .first [groupedInner tr, .prim (errorP "Error in grouped expression")]])
      (SeqTotal.cons (k' := 0) (R := Opnd Is) (erased_total (charClass_total (k := 1) (by decide))) fun h => absurd h (by omega))).mono (by omega) fun l hl => ?_
    obtain ⟨x, y, rfl, rfl, hy⟩ := hl
    exact hy
  | succ n ih =>
    refine indirect_total (i := groupedName) ?_
    have hp : ∀ m (w : Bytes), w.length = 1 → Total m X 1 (· = []) (den (envOf tr) (Gram.erased (.prim (charClass [w])))) := fun m w hw =>
      erased_total (charClass_total (k := 1) (by simp [hw]))
    have h1 : Total n X 0 (Opnd Is) (den (envOf tr) (groupedInner tr)) := by
      refine (flat_total (gs := [Gram.erased sp0, expressionOf tr, Gram.erased (.prim (charClass [b! ")"])), Gram.erased sp0])
        (SeqTotal.cons sp0_total fun _ => SeqTotal.cons ((expression_total_of hR hX ih).weak (by omega)) fun _ =>
          SeqTotal.cons (hp _ (b! ")") rfl) fun _ => SeqTotal.single sp0_total)).mono (by omega) fun l hl => ?_
      obtain ⟨x, y, rfl, rfl, z, w, rfl, hz, u, v, rfl, rfl, rfl⟩ := hl
      simpa using hz
    have h2 : Total n X 0 (Opnd Is) (den (envOf tr) (.first [groupedInner tr, .prim (errorP "Error in grouped expression")])) :=
      first_total (by simp) fun g hg => by
        simp only [List.mem_cons, List.not_mem_nil, or_false] at hg
        rcases hg with rfl | rfl
        · exact h1
        · exact errorP_total _
    refine (flat_total (gs := [Gram.erased (.prim (charClass [b! "("])), .first [groupedInner tr, .prim (errorP "Error in grouped expression")]])
      (SeqTotal.cons (hp _ (b! "(") rfl) fun _ => SeqTotal.single (h2.weak (by omega)))).mono (by omega) fun l hl => ?_
    obtain ⟨x, y, rfl, rfl, hy⟩ := hl
    exact hy

theorem program_total (hR : RulesFor tr Is num neg bin) (hX : ∀ x rest, chainValue neg bin x rest = none → X .divZero) (n : Nat) :
    Total n X 1 (Opnd Is) (den (envOf tr) (programOf tr)) := by
  refine (flat_total (gs := [.prim startP, Gram.erased sp0, expressionOf tr, .prim endS])
    (SeqTotal.cons startP_total fun _ => SeqTotal.cons sp0_total fun _ =>
      SeqTotal.cons ((expression_total_of hR hX (grouped_total hR hX n)).weak (by omega)) fun _ => SeqTotal.single endS_total)).mono (by omega) fun l hl => ?_
  obtain ⟨x, y, rfl, rfl, z, w, rfl, rfl, u, v, rfl, hu, rfl⟩ := hl
  simpa using hu

end

/-- A parser that gives back an unmatched context at the position where it started. -/
def StaysPut (p : Sem) : Prop := ∀ c o, p c = .ok (o, none) → o.status = .unmatched → o.pos = c.pos

theorem flat_stays {env : Env} {gs : List Gram} : StaysPut (den env (.flatGroup gs)) := fun c o h hu => by
  rw [den_flatGroup] at h
  rw [C01_flatGroup_unmatched_ctx _ _ _ h hu]

theorem trans_stays {env : Env} {g : Gram} {t : List Tr} : StaysPut (den env (.trans g t)) := fun c o h hu => by
  rw [den_trans] at h
  obtain ⟨r, hr⟩ := Seq.total [den env g] (enter ":base:Trans" c)
  rw [trans_eq hr] at h
  cases r with
  | matched c' =>
    have hs := hr.matched_status rfl
    simp only [onceResult, Bool.false_eq_true, if_false] at h
    unfold applyTransforms at h
    split at h
    · cases h; simp [hs] at hu
    · split at h
      · cases h
      · split at h <;> cases h
        simp [hs] at hu
  | unmatched => simp [onceResult] at h; rw [← h]
  | failed c' e =>
    simp only [onceResult, Out.ok.injEq, Prod.mk.injEq] at h
    obtain ⟨rfl, rfl⟩ := h
    have := hr.failed_status
    rw [this] at hu; cases hu
  | panicked x => simp [onceResult] at h
  | timedOut => simp [onceResult] at h

/-- What a total program returns at the start of a source: a match with ASTs of the given kind, or no match or an error
at a position within the source, or one of the allowed panics. -/
theorem total_run {env : Env} {g : Gram} {X : Panic → Prop} {k : Nat} {Q : List Ast → Prop} (s : Bytes)
    (h : Total s.length X k Q (den env g)) (hput : StaysPut (den env g)) :
    ∃ N, (∃ l o, Q l ∧ o.stack = l ∧ o.status = .matched ∧ ∀ n, N ≤ n → run env n g (newStrCtx s) = .ok (o, none)) ∨
      (∃ o e, (e = none → o.status ≠ .matched) ∧ o.pos ≤ s.length ∧ ∀ n, N ≤ n → run env n g (newStrCtx s) = .ok (o, e)) ∨
      (∃ x, X x ∧ ∀ n, N ≤ n → run env n g (newStrCtx s) = .panic x) := by
  have hc : At (newStrCtx s) [] s := ⟨rfl, rfl, rfl⟩
  have h1 := h _ _ _ hc (Nat.le_refl _)
  cases hr : den env g (newStrCtx s) with
  | timeout => rw [hr] at h1; exact h1.elim
  | panic x =>
    rw [hr] at h1
    obtain ⟨N, hN⟩ := run_of_den hr (by simp)
    exact ⟨N, .inr (.inr ⟨x, h1, hN⟩)⟩
  | ok oe =>
    obtain ⟨o, e⟩ := oe
    obtain ⟨N, hN⟩ := run_of_den hr (by simp)
    refine ⟨N, ?_⟩
    rw [hr] at h1
    cases e with
    | some e =>
      simp only [Outcome.of, Good] at h1
      exact .inr (.inl ⟨o, some e, by simp, by simpa using h1, hN⟩)
    | none =>
      cases hm : o.status with
      | matched =>
        simp only [Outcome.of, hm] at h1
        obtain ⟨w, rest, _, _, h2⟩ := h1
        obtain ⟨l, h3, h4⟩ := h2.stack
        have : (newStrCtx s).stack = [] := rfl
        exact .inl ⟨l, o, h4, by simpa [this] using h3, hm, hN⟩
      | unmatched => exact .inr (.inl ⟨o, none, by simp [hm], by rw [hput _ o hr hm]; exact Nat.zero_le _, hN⟩)
      | error =>
        simp only [Outcome.of, hm, Good] at h1
        exact .inr (.inl ⟨o, none, by simp [hm], by simpa using h1, hN⟩)

/-- `GetLineAndColPosition` does not panic within the source. -/
theorem getLineAndCol_ok {src : Bytes} {pos : Nat} {t : Int} (h : pos ≤ src.length) (ht : 0 ≤ t) : ∃ r, getLineAndCol src pos t = .ok r := by
  unfold getLineAndCol
  rw [if_neg (by omega)]
  simp only
  rw [if_neg (by omega)]
  exact ⟨_, rfl⟩

end Takenoco
