import Verif.Lemmas.LocalTerms
import Verif.Props.Combinators
import Verif.Props.Combinators2
import Verif.Lemmas.BuiltSimp
import Verif.Model.Examples.Csv
import Verif.Model.Examples.Formula
/-
C56: a parser does not look at what the parsers before it left behind. C15, second part: `Group` and `FlatGroup`.
-/
namespace Takenoco
open Spec

/-- Grammars without `Match`. The user's own terminals, callbacks and transformers must not look at class name, quantity, tag and stack. -/
abbrev LocalGram : Gram → Prop :=
  Uses (fun p => LibTerm p ∨ ∀ below, Local below p) (fun t => LibTr t ∨ LocalT t) (fun f => ∀ below, LocalF below f) False

/-- The same with `Match`. -/
abbrev LocalGramM : Gram → Prop :=
  Uses (fun p => LibTerm p ∨ ∀ below, Local below p) (fun t => LibTr t ∨ LocalT t) (fun f => ∀ below, LocalF below f) True

/-- Two contexts at the same place of the same source; nothing is said about class name, quantity, tag and stack. -/
structure SamePlace (c c' : Ctx) : Prop where
  str : c'.str = c.str
  slice : c'.slice = c.slice
  pos : c'.pos = c.pos
  len : c'.len = c.len
  status : c'.status = c.status

theorem SamePlace.alike {c c' : Ctx} (h : SamePlace c c') : ∀ {s}, c'.stack = s ++ c.stack → Alike s c c' :=
  fun hs => ⟨h.str, h.slice, h.pos, h.len, h.status, hs⟩

theorem localGram_local {env : Env} (he : ∀ x, LocalGram (env x)) {g : Gram} (hg : LocalGram g) (n : Nat) (below : List Ast) : Local below (run env n g) :=
  (run_local (fun _ h below => h.elim libTerm_local (· below)) (fun _ h => h.elim libTr_local id) (fun _ h => h) he n).1 below
    (fun h => h.elim) g hg

/-- The ends of a parser from two contexts at the same place: both match, adding the same ASTs and stopping at the same place, or neither. -/
inductive SameEnd (c c' : Ctx) : Outcome → Outcome → Prop where
  | matched {o o' : Ctx} (new : List Ast) : SamePlace o o' → o.stack = c.stack ++ new → o'.stack = c'.stack ++ new → SameEnd c c' (.matched o) (.matched o')
  | unmatched : SameEnd c c' .unmatched .unmatched
  | failed {o o' : Ctx} {e : Option Err} : o'.pos = o.pos → SameEnd c c' (.failed o e) (.failed o' e)
  | panicked {p : Panic} : SameEnd c c' (.panicked p) (.panicked p)
  | timedOut : SameEnd c c' .timedOut .timedOut

theorem local_sameEnd {p : Sem} (hp : ∀ below, Local below p) {c c' : Ctx} (h : SamePlace c c') : SameEnd c c' (Outcome.of (p c)) (Outcome.of (p c')) := by
  have h1 := outcome_local (hp c.stack { c with stack := [] } c ⟨rfl, rfl, rfl, rfl, rfl, by simp⟩)
  have h2 := outcome_local (hp c'.stack { c with stack := [] } c' ⟨h.str, h.slice, h.pos, h.len, h.status, by simp⟩)
  revert h1 h2
  generalize Outcome.of (p { c with stack := [] }) = x, Outcome.of (p c) = y, Outcome.of (p c') = z
  intro h1 h2
  cases h1 with
  | matched h1 =>
    cases h2 with
    | matched h2 =>
      exact .matched _ ⟨h2.str.trans h1.str.symm, h2.slice.trans h1.slice.symm, h2.pos.trans h1.pos.symm, h2.len.trans h1.len.symm,
        h2.status.trans h1.status.symm⟩ h1.stack h2.stack
  | unmatched => cases h2; exact .unmatched
  | failed h1 => cases h2 with | failed h2 => exact .failed (h2.pos.trans h1.pos.symm)
  | panicked => cases h2; exact .panicked
  | timedOut => cases h2; exact .timedOut

/-- **C56.** From two contexts at the same place of the same source, whatever their class names, quantities, tags and stacks, a parser
ends in the same way: it adds the same ASTs and stops at the same place, or does not match, or fails with the same error, or panics,
or does not end, in both. -/
theorem C56_same_end {env : Env} (he : ∀ x, LocalGram (env x)) {g : Gram} (hg : LocalGram g) (n : Nat) {c c' : Ctx} (h : SamePlace c c') :
    SameEnd c c' (Outcome.of (run env n g c)) (Outcome.of (run env n g c')) :=
  local_sameEnd (localGram_local he hg n) h

/-- The same place, seen by a parser that runs on its own. -/
def alone (c : Ctx) : Ctx := { c with cls := "", qty := 0, tag := .nil, stack := [] }

theorem SamePlace.alone {c d : Ctx} (h : SamePlace c d) : SamePlace c (Takenoco.alone d) := ⟨h.str, h.slice, h.pos, h.len, h.status⟩

theorem sameEnd_matched {c c' o : Ctx} {x : Outcome} (h : SameEnd c c' (.matched o) x) :
    ∃ o' new, x = .matched o' ∧ SamePlace o o' ∧ o.stack = c.stack ++ new ∧ o'.stack = c'.stack ++ new := by
  cases h with
  | matched new h1 h2 h3 => exact ⟨_, new, rfl, h1, h2, h3⟩

/-- **C56.** In particular, a parser inside a grammar adds the ASTs it would add on its own at that place. -/
theorem C56_standalone {env : Env} (he : ∀ x, LocalGram (env x)) {g : Gram} (hg : LocalGram g) (n : Nat) {c o : Ctx}
    (h : Outcome.of (run env n g c) = .matched o) :
    ∃ o', Outcome.of (run env n g (alone c)) = .matched o' ∧ SamePlace o o' ∧ o.stack = c.stack ++ o'.stack := by
  have h1 := C56_same_end he hg n (c := c) (c' := alone c) ⟨rfl, rfl, rfl, rfl, rfl⟩
  rw [h] at h1
  obtain ⟨o', new, h2, h3, h4, h5⟩ := sameEnd_matched h1
  exact ⟨o', h2, h3, by rw [h4, h5]; rfl⟩

/-- **C56** for a sequence: `FlatGroup(a, b)` adds what `a` adds on its own, and then what `b` adds on its own where `a` stopped. -/
theorem C56_sequence {env : Env} (he : ∀ x, LocalGram (env x)) {a b : Gram} (ha : LocalGram a) (hb : LocalGram b) (n : Nat) {c o : Ctx}
    (hc : c.status = .matched) (h : Outcome.of (run env (n + 1) (.flatGroup [a, b]) c) = .matched o) :
    ∃ d d', Outcome.of (run env n a (alone c)) = .matched d ∧ Outcome.of (run env n b (alone d)) = .matched d' ∧
      o.pos = d'.pos ∧ o.stack = c.stack ++ d.stack ++ d'.stack := by
  have h1 : run env (n + 1) (.flatGroup [a, b]) c = flatGroup [run env n a, run env n b] c := by rw [run.eq_def]; rfl
  rw [h1, C01_flatGroup_matched] at h
  obtain ⟨x, hx, rfl⟩ := h
  cases hx with
  | stop hq hn => exact absurd rfl (hn x)
  | step hd hx =>
    cases hx with
    | stop hq hn => exact absurd rfl (hn x)
    | step hd2 hx =>
      cases hx
      obtain ⟨d, h2, h3, h4⟩ := C56_standalone he ha n hd
      have h5 : alone (enter ":base:FlatGroup" c) = alone c := by unfold alone enter; rw [hc]
      rw [h5] at h2
      have h6 := C56_same_end he hb n h3.alone
      rw [hd2] at h6
      obtain ⟨d', new, h7, h8, h9, h10⟩ := sameEnd_matched h6
      exact ⟨d, d', h2, h7, h8.pos.symm, by rw [h10]; exact h9.trans (by rw [h4]; rfl)⟩

/-- **C56** with `Match`: class name, quantity and tag do not matter, with the same stack. -/
theorem C56_match {env : Env} (he : ∀ x, LocalGramM (env x)) {g : Gram} (hg : LocalGramM g) (n : Nat) {c c' o : Ctx} (h : SamePlace c c')
    (hs : c'.stack = c.stack) (ho : Outcome.of (run env n g c) = .matched o) :
    ∃ o', Outcome.of (run env n g c') = .matched o' ∧ SamePlace o o' ∧ o'.stack = o.stack := by
  have h1 := (run_local (fun _ h below => h.elim libTerm_local (· below)) (fun _ h => h.elim libTr_local id) (fun _ h => h) he n).1 [] (fun _ => rfl) g hg c c'
    (h.alike (by rw [hs]; rfl))
  obtain ⟨o', h2, h3⟩ := (outcome_local h1).of_matched ho
  exact ⟨o', h2, ⟨h3.str, h3.slice, h3.pos, h3.len, h3.status⟩, h3.stack⟩

/-- `Match` is a real exception: it looks at the ASTs of the parsers before it. -/
theorem C56_match_false : ∃ (g : Gram) (c c' : Ctx), LocalGramM g ∧ SamePlace c c' ∧
    (∃ o, Outcome.of (run noEnv 5 g c) = .matched o) ∧ Outcome.of (run noEnv 5 g c') = .unmatched :=
  ⟨.match 1 [(fun l => l.any (·.opCode == 1), [.fn erase])], { newStrCtx [] with stack := [{ Ast.zero with opCode := 1 }] }, { newStrCtx [] with stack := [Ast.zero] },
    .match trivial (by intro c hc t ht; simp at hc; subst hc; simp at ht; subst ht; exact .fn (.inl .erase)),
    ⟨rfl, rfl, rfl, rfl, rfl⟩, ⟨_, by cbv⟩, by cbv⟩

/-! ### C15: `Group` and `FlatGroup` -/

/-- **C15.** `Group(ps)` matches exactly when `FlatGroup(ps)` does, stops at the same place, and adds one list-AST holding exactly the ASTs
that `FlatGroup(ps)` adds. -/
theorem C15_group_flatGroup {ps : List Sem} (hp : ∀ p ∈ ps, ∀ below, Local below p) (c : Ctx) :
    (∀ o, Outcome.of (flatGroup ps c) = .matched o → ∃ o' new, Outcome.of (group ps c) = .matched o' ∧ SamePlace o o' ∧ o.stack = c.stack ++ new ∧
      o'.stack = c.stack ++ [{ Ast.zero with cls := ":base:Group", ty := .listOfAst, val := .list new }]) ∧
    (∀ o', Outcome.of (group ps c) = .matched o' → ∃ o, Outcome.of (flatGroup ps c) = .matched o) := by
  have hal : Alike [] (enter ":base:FlatGroup" c) (enter ":base:Group" c) := ⟨rfl, rfl, rfl, rfl, rfl, rfl⟩
  have hla : Alike [] (enter ":base:Group" c) (enter ":base:FlatGroup" c) := ⟨rfl, rfl, rfl, rfl, rfl, rfl⟩
  have hstack : ∀ c', Seq ps (enter ":base:Group" c) (.matched c') → ∃ new, c'.stack = c.stack ++ new := fun c' h => seq_extends (c := enter ":base:Group" c) hp h
  refine ⟨fun o ho => ?_, fun o' ho => ?_⟩
  · obtain ⟨d, hd, rfl⟩ := (C01_flatGroup_matched ps c o).1 ho
    obtain ⟨r, h1, h2⟩ := seq_local (fun p h => hp p h []) hd hal
    obtain ⟨d', rfl, h3⟩ := h2.of_matched rfl
    obtain ⟨new, hn⟩ := hstack d' h1
    refine ⟨_, new, (C15_group ps c _ hstack).2 ⟨d', new, h1, hn, rfl⟩, ⟨h3.str, h3.slice, h3.pos, h3.len, h3.status⟩, ?_, rfl⟩
    rw [← hn]; exact h3.stack.symm
  · obtain ⟨d, new, hd, hn, rfl⟩ := (C15_group ps c o' hstack).1 ho
    obtain ⟨r, h1, h2⟩ := seq_local (fun p h => hp p h []) hd hla
    obtain ⟨d', rfl, h3⟩ := h2.of_matched rfl
    exact ⟨_, (C01_flatGroup_matched ps c _).2 ⟨d', h1, rfl⟩⟩

/-- The hypothesis is needed: a child written by hand can look at the class name, and tell `Group` from `FlatGroup`. -/
theorem C15_class_name_false : ∃ (p : Sem) (c : Ctx), (∃ o, Outcome.of (group [p] c) = .matched o) ∧ Outcome.of (flatGroup [p] c) = .unmatched :=
  ⟨fun c => .ok ({ c with status := if c.cls = ":base:Group" then .matched else .unmatched }, none), newStrCtx [], ⟨_, by cbv⟩, by cbv⟩

/-- **C15** for grammars of the library. -/
theorem C15_group_grammar {env : Env} (he : ∀ x, LocalGram (env x)) {gs : List Gram} (hg : ∀ g ∈ gs, LocalGram g) (n : Nat) (c : Ctx) :
    (∀ o, Outcome.of (run env (n + 1) (.flatGroup gs) c) = .matched o → ∃ o' new, Outcome.of (run env (n + 1) (.group gs) c) = .matched o' ∧
      SamePlace o o' ∧ o.stack = c.stack ++ new ∧ o'.stack = c.stack ++ [{ Ast.zero with cls := ":base:Group", ty := .listOfAst, val := .list new }]) ∧
    (∀ o', Outcome.of (run env (n + 1) (.group gs) c) = .matched o' → ∃ o, Outcome.of (run env (n + 1) (.flatGroup gs) c) = .matched o) := by
  have h1 : run env (n + 1) (.flatGroup gs) c = flatGroup (gs.map (run env n)) c := by rw [run.eq_def]
  have h2 : run env (n + 1) (.group gs) c = group (gs.map (run env n)) c := by rw [run.eq_def]
  rw [h1, h2]
  refine C15_group_flatGroup (fun p hp below => ?_) c
  obtain ⟨g, hg2, rfl⟩ := List.mem_map.1 hp
  exact localGram_local he (hg g hg2) n below

/-- **C15**, `Erase`, for grammars of the library: `Trans(g, Erase)` matches exactly when `g` does, at the same place, and adds nothing. -/
theorem C15_erase_grammar {env : Env} (he : ∀ x, LocalGram (env x)) {g : Gram} (hg : LocalGram g) (n : Nat) (hn : 0 < n) (c : Ctx) (hc : c.status = .matched) :
    (∀ o, Outcome.of (run env n g c) = .matched o →
      ∃ o', Outcome.of (run env (n + 1) (.trans g [.fn erase]) c) = .matched o' ∧ SamePlace o o' ∧ o'.stack = c.stack) ∧
    (∀ o', Outcome.of (run env (n + 1) (.trans g [.fn erase]) c) = .matched o' → ∃ o, Outcome.of (run env n g c) = .matched o) := by
  obtain ⟨m, rfl⟩ : ∃ m, n = m + 1 := ⟨n - 1, by omega⟩
  have h1 : run env (m + 1 + 1) (.trans g [.fn erase]) c = trans (run env (m + 1) g) [erase] c := by
    rw [run.eq_def]
    have : runTr env (m + 1) (.fn erase) = erase := by rw [runTr.eq_def]
    simp only [List.map_cons, List.map_nil, this]
  rw [h1]
  have hl := localGram_local he hg (m + 1)
  have hst : ∀ c', Outcome.of (run env (m + 1) g (enter ":base:Trans" c)) = .matched c' → ∃ new, c'.stack = c.stack ++ new :=
    fun c' h => local_extends (c := enter ":base:Trans" c) hl h
  refine ⟨fun o ho => ?_, fun o' ho => ?_⟩
  · obtain ⟨d, h2, h3⟩ := (outcome_local (hl [] c (enter ":base:Trans" c) ⟨rfl, rfl, rfl, rfl, hc.symm, rfl⟩)).of_matched ho
    exact ⟨_, (C15_erase _ c _ hst).2 ⟨d, h2, rfl⟩, ⟨h3.str, h3.slice, h3.pos, h3.len, h3.status⟩, rfl⟩
  · obtain ⟨d, h2, rfl⟩ := (C15_erase _ c _ hst).1 ho
    obtain ⟨o, h3, _⟩ := (outcome_local (hl [] c (enter ":base:Trans" c) ⟨rfl, rfl, rfl, rfl, hc.symm, rfl⟩)).to_matched h2
    exact ⟨o, h3⟩

/-! ### Examples -/

section
variable {P : Sem → Prop} {T : TSem → Prop} {F : ImplFn → Prop} {M : Prop}
theorem uses_prim {p : Sem} : Uses P T F M (.prim p) ↔ P p := ⟨fun h => by cases h; assumption, .prim⟩
theorem uses_flatGroup {gs : List Gram} : Uses P T F M (.flatGroup gs) ↔ ∀ g ∈ gs, Uses P T F M g := ⟨fun h => by cases h; assumption, .flatGroup⟩
theorem uses_first {gs : List Gram} : Uses P T F M (.first gs) ↔ ∀ g ∈ gs, Uses P T F M g := ⟨fun h => by cases h; assumption, .first⟩
theorem uses_repeat {t : Times} {gs : List Gram} : Uses P T F M (.repeat t gs) ↔ ∀ g ∈ gs, Uses P T F M g := ⟨fun h => by cases h; assumption, .repeat⟩
theorem uses_trans {g : Gram} {trs : List Tr} : Uses P T F M (.trans g trs) ↔ Uses P T F M g ∧ ∀ t ∈ trs, UsesTr P T F M t :=
  ⟨fun h => by cases h; constructor <;> assumption, fun h => .trans h.1 h.2⟩
theorem uses_indirect {i : Nat} : Uses P T F M (.indirect i) ↔ True := ⟨fun _ => trivial, fun _ => .indirect⟩
theorem usesTr_fn {t : TSem} : UsesTr P T F M (.fn t) ↔ T t := ⟨fun h => by cases h; assumption, .fn⟩
theorem usesTr_production {precs : List (List Gram × Bool)} {check : Gram} : UsesTr P T F M (.production precs check) ↔
    (∀ p ∈ precs, ∀ g ∈ p.1, Uses P T F M g) ∧ Uses P T F M check := ⟨fun h => by cases h; constructor <;> assumption, fun h => .production h.1 h.2⟩
theorem objTerm_any {A : Ast → Prop} : ObjTerm A objAny ↔ True := ⟨fun _ => trivial, fun _ => .any⟩
theorem objTerm_end {A : Ast → Prop} : ObjTerm A objEnd ↔ True := ⟨fun _ => trivial, fun _ => .end⟩
theorem objTerm_classFn {A : Ast → Prop} {f : Value → Out Bool} : ObjTerm A (objClassFn f) ↔ True := ⟨fun _ => trivial, fun _ => .objClassFn f⟩
theorem localT_erase : LocalT erase ↔ True := iff_true_intro (libTr_local .erase)
theorem localT_concat : LocalT concat ↔ True := iff_true_intro (libTr_local .concat)
theorem localT_trim : LocalT trim ↔ True := iff_true_intro (libTr_local .trim)
theorem localT_changeClassName {s : String} : LocalT (changeClassName s) ↔ True := iff_true_intro (libTr_local (.changeClassName s))
theorem localT_line : LocalT Csv.lineTransform ↔ True := iff_true_intro fun _ _ _ _ _ => rfl
theorem localT_document : LocalT Csv.documentTransform ↔ True := iff_true_intro fun _ _ _ _ _ => rfl
theorem localT_number : LocalT Formula.numberTr ↔ True := iff_true_intro fun _ _ _ _ _ => rfl
theorem localT_unwrap : LocalT Formula.unwrapOperandItem ↔ True := iff_true_intro fun _ _ _ _ _ => rfl
theorem localT_unary : LocalT Formula.unaryTr ↔ True := iff_true_intro fun _ _ _ _ _ => rfl
theorem localT_mulDiv : LocalT Formula.mulDivTr ↔ True := iff_true_intro fun _ _ _ _ _ => rfl
theorem localT_addSub : LocalT Formula.addSubTr ↔ True := iff_true_intro fun _ _ _ _ _ => rfl
end

/-- Proves that a concrete grammar is covered. -/
macro "localgram" "[" ds:Lean.Parser.Tactic.simpLemma,* "]" : tactic => `(tactic|
  simp only [$ds,*, Gram.erased, Gram.star, Gram.plus, Gram.opt, Gram.one, Extra.range, Extra.seqG, LocalGram, LibTerm,
    List.forall_mem_cons, List.not_mem_nil, uses_prim, uses_flatGroup, uses_first, uses_repeat, uses_trans,
    uses_indirect, usesTr_fn, usesTr_production, objTerm_any, objTerm_end, objTerm_classFn,
    localT_erase, localT_concat, localT_trim, localT_changeClassName, localT_line, localT_document, localT_number, localT_unwrap, localT_unary, localT_mulDiv,
    localT_addSub,
    strTerm_any, strTerm_end, strTerm_seq, strTerm_charRange, strTerm_charClass, strTerm_charClassN,
    strTerm_charClassFn, strTerm_whitespace, strTerm_whitespaceNoLineBreak, strTerm_lineBreak, strTerm_alpha,
    strTerm_number, strTerm_alnum, strTerm_wordBoundary, strTerm_error, strTerm_unmatched, strTerm_start,
    true_or, or_true, and_true, true_and, false_implies, implies_true, and_self])

/-- The csv example. -/
theorem localGram_csv : LocalGram Csv.document := by
  localgram [Csv.document, Csv.line, Csv.quotedCell, Csv.cell, Csv.quotedChunk, Csv.quotedChar, Csv.sp]

theorem localGram_expression : LocalGram Formula.expression := by
  localgram [Formula.expression, Formula.expressionInner, Formula.simpleExpression, Formula.numberG, Formula.unaryOperator, Formula.binaryOperator,
    Formula.sp0, Extra.integerNumberStr, Extra.plusMinus, Extra.zeroLit, Extra.digits, Extra.digitOr_, Extra.eraseUnderscore,
    Formula.formulaProductionRules, Formula.precedences, Formula.checkG, Formula.unaryRule, Formula.mulDivRule, Formula.addSubRule,
    Formula.anyOperand, Formula.isOperator]

/-- The formula example, with its production rules. -/
theorem localGram_env (x : Nat) : LocalGram (Formula.env x) := by
  have he := localGram_expression
  unfold LocalGram at he
  localgram [Formula.env, Formula.groupedExpression, Formula.sp0]
  exact he

/-- A formula inside another grammar: whatever was parsed before it, it adds the AST it adds on its own. -/
example (n : Nat) {c o : Ctx} (h : Outcome.of (run Formula.env n Formula.expression c) = .matched o) :
    ∃ o', Outcome.of (run Formula.env n Formula.expression (alone c)) = .matched o' ∧ SamePlace o o' ∧ o.stack = c.stack ++ o'.stack :=
  C56_standalone localGram_env localGram_expression n h

/-- `1,2` after something else: the hypothesis is met. -/
example : ∃ o, Outcome.of (run noEnv 30 Csv.cell { newStrCtx (b! "1,2") with stack := [Ast.zero], cls := "x" }) = .matched o := ⟨_, by cbv⟩

/-- `FlatGroup(Number, Alpha)` after something else. -/
example : ∃ o, Outcome.of (run noEnv 9 (.flatGroup [.prim number, .prim alpha]) { newStrCtx (b! "1a") with stack := [Ast.zero] }) = .matched o ∧ o.stack.length = 3 :=
  ⟨_, by cbv, by cbv⟩

/-- `Group(Number, Number)` and `FlatGroup(Number, Number)` match on `12`. -/
example : ∃ o, Outcome.of (flatGroup [number, number] (newStrCtx (b! "12"))) = .matched o ∧ o.stack.length = 2 := ⟨_, by cbv, by cbv⟩
example : ∀ p ∈ [number, number], ∀ below, Local below p := by
  intro p hp below
  simp only [List.mem_cons, List.not_mem_nil, or_false, or_self] at hp
  subst hp
  exact libTerm_local (.inl .number)

#print axioms C56_same_end
#print axioms C56_standalone
#print axioms C56_sequence
#print axioms C56_match
#print axioms C56_match_false
#print axioms C15_group_flatGroup
#print axioms C15_class_name_false
#print axioms C15_group_grammar
#print axioms C15_erase_grammar

end Takenoco
