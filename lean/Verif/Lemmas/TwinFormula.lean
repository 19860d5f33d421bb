import Verif.Lemmas.Twin
import Verif.Lemmas.FormulaTotal
import Verif.Props.Local
/-
The formula and torpn examples are twins: they differ only in the production rules.
-/
namespace Takenoco
open Spec Formula

/-! ### Grammars without `Indirect` -/

/-- A grammar that runs the same whatever the names of `Indirect` stand for. -/
def EnvFree (g : Gram) : Prop := ∀ env env' n, run env n g = run env' n g

theorem envFree_map {gs : List Gram} (h : ∀ g ∈ gs, EnvFree g) (env env' : Env) (n : Nat) : gs.map (run env n) = gs.map (run env' n) :=
  List.map_congr_left fun g hg => h g hg env env' n

theorem envFree_prim {p : Sem} : EnvFree (.prim p) := fun env env' n => by cases n <;> simp only [run]

theorem envFree_flatGroup {gs : List Gram} (h : ∀ g ∈ gs, EnvFree g) : EnvFree (.flatGroup gs) := fun env env' n => by
  cases n with
  | zero => simp only [run]
  | succ n => simp only [run, envFree_map h env env' n]

theorem envFree_first {gs : List Gram} (h : ∀ g ∈ gs, EnvFree g) : EnvFree (.first gs) := fun env env' n => by
  cases n with
  | zero => simp only [run]
  | succ n => simp only [run, envFree_map h env env' n]

theorem envFree_repeat {t : Times} {gs : List Gram} (h : ∀ g ∈ gs, EnvFree g) : EnvFree (.repeat t gs) := fun env env' n => by
  cases n with
  | zero => simp only [run]
  | succ n => simp only [run, envFree_map h env env' n]

theorem envFree_trans {g : Gram} {t : TSem} (h : EnvFree g) : EnvFree (.trans g [.fn t]) := fun env env' n => by
  cases n with
  | zero => simp only [run]
  | succ n =>
    have h1 : ∀ e : Env, runTr e n (.fn t) = if n = 0 then runTr e 0 (.fn t) else t := fun e => by cases n <;> simp [runTr]
    have h2 : runTr env 0 (.fn t) = runTr env' 0 (.fn t) := by simp only [runTr]
    simp only [run, h env env' n, List.map, h1, h2]

theorem envFree_trans2 {g : Gram} {t u : TSem} (h : EnvFree g) : EnvFree (.trans g [.fn t, .fn u]) := fun env env' n => by
  cases n with
  | zero => simp only [run]
  | succ n =>
    have h1 : ∀ (e : Env) (t : TSem), runTr e n (.fn t) = if n = 0 then runTr e 0 (.fn t) else t := fun e t => by cases n <;> simp [runTr]
    have h2 : ∀ t, runTr env 0 (.fn t) = runTr env' 0 (.fn t) := fun t => by simp only [runTr]
    simp only [run, h env env' n, List.map, h1, h2]

/-- Proves that a concrete grammar is free of names. -/
macro "envfree" "[" ds:Lean.Parser.Tactic.simpLemma,* "]" : tactic => `(tactic|
  (simp only [$ds,*, Gram.erased, Gram.star, Gram.plus, Gram.opt, Gram.one]
   repeat first
    | exact envFree_prim
    | refine envFree_trans ?_
    | refine envFree_trans2 ?_
    | (first | refine envFree_flatGroup ?_ | refine envFree_first ?_ | refine envFree_repeat ?_
       simp only [List.forall_mem_cons, List.not_mem_nil, false_implies, implies_true, and_true])
    | refine ⟨?_, ?_⟩))

theorem envFree_sp0 : EnvFree (Gram.erased sp0) := by envfree [sp0]
theorem envFree_unary : EnvFree unaryOperator := by envfree [unaryOperator, sp0]
theorem envFree_binary : EnvFree binaryOperator := by envfree [binaryOperator, sp0]
theorem envFree_simple : EnvFree simpleExpression := by
  envfree [simpleExpression, numberG, binaryOperator, sp0, Extra.integerNumberStr, Extra.plusMinus, Extra.zeroLit, Extra.digits, Extra.digitOr_, Extra.eraseUnderscore]

/-! ### The parts that are the same -/

/-- Inside the source. -/
def InStr (c : Ctx) : Prop := c.pos ≤ c.str.length

theorem inStr_ofPlace : OfPlace InStr := fun c c' h hi => by unfold InStr at *; rw [h.pos, h.str]; exact hi

variable {env env' : Env}

theorem twin_same {g : Gram} (hf : EnvFree g) (hl : LocalGram g) (ht : ∀ n, ∃ k Q, Total n (fun _ => True) k Q (den env g)) : Twin InStr env env' g g := by
  refine .same fun n c c' hc hm hi => ?_
  have h := C56_same_end (env := fun _ => .prim anyS) (fun _ => .prim (.inl (.inl .any))) hl n (c := c) (c' := c') ⟨hc.str, hc.slice, hc.pos, hc.len, hc.status⟩
  rw [hf _ env, ← hf env env'] at *
  generalize hx : Outcome.of (run env n g c) = x at h
  generalize Outcome.of (run env n g c') = y at h
  cases h with
  | @matched o o' new h1 h2 h3 =>
    refine .matched ⟨h1.str, h1.slice, h1.pos, h1.len, h1.status⟩ ?_
    obtain ⟨k, Q, ht⟩ := ht c.str.length
    have := ht c _ _ (At.of hi hm) (by simp)
    rw [den_of_run (n := n) (by intro h0; rw [h0] at hx; cases hx), hx] at this
    obtain ⟨w, rest, _, _, h5⟩ := this
    exact h5.at_.le
  | unmatched => exact .unmatched
  | failed h => exact .failed h
  | panicked => exact .panickedL
  | timedOut => exact .timedOutL

theorem twin_errorP {s : String} : Twin InStr env env' (.prim (errorP s)) (.prim (errorP s)) :=
  twin_same envFree_prim (by localgram [sp0]) fun _ => ⟨0, _, errorP_total (Q := fun _ => True) _⟩

theorem twin_sp0 : Twin InStr env env' (Gram.erased sp0) (Gram.erased sp0) :=
  twin_same envFree_sp0 (by localgram [sp0]) fun _ => ⟨_, _, sp0_total⟩

theorem twin_char {w : Bytes} (hw : w.length = 1) : Twin InStr env env' (Gram.erased (.prim (charClass [w]))) (Gram.erased (.prim (charClass [w]))) :=
  twin_same (by envfree [sp0]) (by localgram [sp0]) fun _ => ⟨_, _, erased_total (charClass_total (k := 1) (by simp [hw]))⟩

theorem twin_unaries : Twin InStr env env' (Gram.star [unaryOperator]) (Gram.star [unaryOperator]) :=
  .repeat (.cons (twin_same envFree_unary (by localgram [unaryOperator, sp0]) fun _ => ⟨_, _, unary_total⟩) .nil)

theorem twin_binary : Twin InStr env env' binaryOperator binaryOperator :=
  twin_same envFree_binary (by localgram [binaryOperator, sp0]) fun _ => ⟨_, _, binary_total⟩

theorem twin_startP : Twin InStr env env' (.prim startP) (.prim startP) :=
  twin_same envFree_prim (by localgram [sp0]) fun _ => ⟨_, _, startP_total⟩

theorem twin_endS : Twin InStr env env' (.prim endS) (.prim endS) :=
  twin_same envFree_prim (by localgram [sp0]) fun _ => ⟨_, _, endS_total⟩

/-! ### The examples -/

section
variable {D D' : Type} {tr tr' : Tr} {Is : Ast → Tok D → Prop} {num : Int64 → D} {neg : D → D} {bin : BinOp → D → D → Option D}
  {Is' : Ast → Tok D' → Prop} {num' : Int64 → D'} {neg' : D' → D'} {bin' : BinOp → D' → D' → Option D'}

theorem twin_simple (hR : RulesFor tr Is num neg bin) : Twin InStr (envOf tr) env' simpleExpression simpleExpression :=
  twin_same envFree_simple (by
    localgram [simpleExpression, numberG, binaryOperator, sp0, Extra.integerNumberStr, Extra.plusMinus, Extra.zeroLit, Extra.digits, Extra.digitOr_,
      Extra.eraseUnderscore]) fun _ => ⟨_, _, simple_total hR⟩

theorem twin_inner (hR : RulesFor tr Is num neg bin) : Twin InStr (envOf tr) env' expressionInner expressionInner := by
  have h : Twin InStr (envOf tr) env' (.flatGroup [Gram.star [unaryOperator], .first [simpleExpression, .indirect groupedName]])
      (.flatGroup [Gram.star [unaryOperator], .first [simpleExpression, .indirect groupedName]]) :=
    .flatGroup (.cons twin_unaries (.cons (.first (by simp) (.cons (twin_simple hR) (.cons .indirect .nil))) .nil))
  refine .flatGroup (.cons twin_unaries (.cons (.first (by simp) (.cons (twin_simple hR) (.cons .indirect (.cons twin_errorP .nil)))) (.cons ?_ .nil)))
  exact .repeat (.cons twin_binary (.cons (.first (by simp) (.cons h (.cons twin_errorP .nil))) .nil))

/-- The production rules never report an error. -/
theorem rules_quiet (hR : RulesFor tr Is num neg bin) : NeverRefuses InStr (envOf tr) expressionInner [tr] := by
  intro n m c o hm hi ho d l e he
  have ht := inner_total hR (grouped_total (X := fun _ => True) hR (fun _ _ _ => trivial) c.str.length) c _ _ (At.of hi hm) (by simp)
  rw [den_of_run (n := n) (by intro h0; rw [h0] at ho; cases ho), ho] at ht
  obtain ⟨w, rest, _, _, h1⟩ := ht
  obtain ⟨new, h2, x, xs, h3⟩ := h1.stack
  rw [h2, List.drop_left] at he
  obtain ⟨g1, g2⟩ := hR.gives d new x xs h3
  simp only [List.map, applyTrs] at he
  have hd : runTr (envOf tr) m tr d new = .timeout ∨ denTr (envOf tr) tr d new = runTr (envOf tr) m tr d new := by
    by_cases h : runTr (envOf tr) m tr d new = .timeout
    · exact .inl h
    · exact .inr (denTr_of_run h)
  rcases hd with hd | hd
  · rw [hd] at he; cases he
  · rw [← hd] at he
    cases hv : chainValue neg bin x xs with
    | none => rw [g2 hv] at he; cases he
    | some v =>
      obtain ⟨y, _, h4⟩ := g1 v hv
      rw [h4] at he; cases he

theorem twin_expression (hR : RulesFor tr Is num neg bin) (hR' : RulesFor tr' Is' num' neg' bin') :
    Twin InStr (envOf tr) (envOf tr') (expressionOf tr) (expressionOf tr') :=
  .trans (twin_inner hR) (rules_quiet hR) (rules_quiet hR')

theorem twin_grouped (hR : RulesFor tr Is num neg bin) (hR' : RulesFor tr' Is' num' neg' bin') :
    Twin InStr (envOf tr) (envOf tr') (groupedOf tr) (groupedOf tr') :=
  .flatGroup (.cons (twin_char rfl) (.cons (.first (by simp) (.cons
    (.flatGroup (.cons twin_sp0 (.cons (twin_expression hR hR') (.cons (twin_char rfl) (.cons twin_sp0 .nil))))) (.cons twin_errorP .nil))) .nil))

theorem twin_program (hR : RulesFor tr Is num neg bin) (hR' : RulesFor tr' Is' num' neg' bin') :
    Twin InStr (envOf tr) (envOf tr') (programOf tr) (programOf tr') :=
  .flatGroup (.cons twin_startP (.cons twin_sp0 (.cons (twin_expression hR hR') (.cons twin_endS .nil))))

end

end Takenoco
