import Verif.Lemmas.Invariants
import Verif.Lemmas.BuiltSimp
import Verif.Model.Examples.Csv
/-
Properties of every parser that can be built with the library (C07-C11), recursion through `Indirect`
included. A grammar may also use parsers, callbacks and transformers written by the user, as far as
those have the property in question.
-/
namespace Takenoco
open Spec

/-! ### C07: AST stack discipline -/

/-- When `p` matches, the stack is the old one followed by new ASTs. -/
def KeepsStack (p : Sem) : Prop := ∀ c o, Outcome.of (p c) = .matched o → ∃ new, o.stack = c.stack ++ new

/-- Grammars without `Match`, with arbitrary transformers. -/
abbrev StackGram : Gram → Prop :=
  Built (fun p => LibTerm p ∨ KeepsStack p) (fun _ => True) (fun f => ∀ k b, KeepsStack (f k b)) (fun _ => True) False

/-- **C07.** Every parser built from the library (`Match` excepted) leaves the ASTs already on the stack
untouched. -/
theorem C07_stack_discipline {env : Env} (henv : ∀ i, StackGram (env i)) {g : Gram} (hg : StackGram g)
    (n : Nat) : KeepsStack (run env n g) := by
  have key : Obeys (fun _ => True) (fun _ => True) (fun a b => a.stack <+: b.stack) (fun _ => True) (run env n g) := by
    have hF : ∀ {g}, StackGram g → Built (fun p => LibTerm p ∨ KeepsStack p) (fun _ => True)
        (ObeysF (fun _ => True) (fun _ => True) (fun a b => a.stack <+: b.stack) (fun _ => True)) (fun _ => True) False g := by
      intro g h
      refine h.mono_F ?_
      intro f hf k b c _ _
      refine ⟨fun _ _ => trivial, fun o ho => ⟨trivial, fun _ _ => trivial, ?_⟩⟩
      obtain ⟨new, hn⟩ := hf k b c o ho
      exact ⟨new, hn.symm⟩
    refine laws_stack.closed.run ?_ ?_ (fun i => hF (henv i)) n g (hF hg)
    · intro p hp c _ _
      refine ⟨fun _ _ => trivial, fun o ho => ⟨trivial, fun _ _ => trivial, ?_⟩⟩
      rcases hp with hp | hp
      · obtain ⟨Bad, L, h⟩ := libTerm_res hp c
        obtain ⟨k, new, _, _, h2, _⟩ := h.matched_inv ho
        exact ⟨new, h2.symm⟩
      · obtain ⟨new, hn⟩ := hp c o ho
        exact ⟨new, hn.symm⟩
    · intro t _ n c asts _ _
      exact ⟨fun _ _ => trivial, fun _ _ _ _ => trivial⟩
  intro c o ho
  obtain ⟨_, _, new, hn⟩ := (key c trivial (fun _ _ => trivial)).2 o ho
  exact ⟨new, hn.symm⟩

/-- `Match` is a real exception: it consumes ASTs that were on the stack before. -/
theorem C07_match_consumes : ¬ KeepsStack (matchP 1 [(topIsAny, [erase])]) := by
  intro h
  obtain ⟨new, hn⟩ := h { newStrCtx [] with stack := [Ast.zero] } _ rfl
  simp [newStrCtx, fixStatus] at hn

/-! ### C08: position -/

/-- From a position inside the source string, `p` only moves forward and stays inside. -/
def MovesInStr (p : Sem) : Prop :=
  ∀ c o, c.pos ≤ c.str.length → Outcome.of (p c) = .matched o → c.pos ≤ o.pos ∧ o.pos ≤ c.str.length ∧ o.str = c.str

/-- From a position inside the source slice, `p` only moves forward and stays inside. -/
def MovesInSlice (p : Sem) : Prop :=
  ∀ c o src, c.slice = some src → c.pos ≤ src.items.length → Outcome.of (p c) = .matched o →
    c.pos ≤ o.pos ∧ o.pos ≤ src.items.length ∧ o.slice = some src

/-- Grammars for string sources (`Match` allowed). -/
abbrev StrPosGram : Gram → Prop :=
  Built (fun p => StrTerm (fun _ => True) p ∨ MovesInStr p) (fun _ => True) (fun f => ∀ k b, MovesInStr (f k b))
    (fun _ => True) True

/-- **C08**, string sources. -/
theorem C08_string_position {env : Env} (henv : ∀ i, StrPosGram (env i)) {g : Gram} (hg : StrPosGram g)
    (n : Nat) : MovesInStr (run env n g) := by
  have key : Obeys (fun c => c.pos ≤ c.str.length) (fun _ => True) (fun a b => a.pos ≤ b.pos ∧ b.str = a.str)
      (fun _ => True) (run env n g) := by
    have hU : ∀ p, MovesInStr p → Obeys (fun c => c.pos ≤ c.str.length) (fun _ => True)
        (fun a b => a.pos ≤ b.pos ∧ b.str = a.str) (fun _ => True) p := by
      intro p hp c hc _
      refine ⟨fun _ _ => trivial, fun o ho => ?_⟩
      obtain ⟨h1, h2, h3⟩ := hp c o hc ho
      exact ⟨by show o.pos ≤ o.str.length; rw [h3]; exact h2, fun _ _ => trivial, h1, h3⟩
    refine laws_strPos.closed.run (P := fun p => StrTerm (fun _ => True) p ∨ MovesInStr p) (T := fun _ => True) ?_ ?_
      (fun i => (henv i).mono_F fun f hf k b => hU _ (hf k b)) n g (hg.mono_F fun f hf k b => hU _ (hf k b))
    · intro p hp
      rcases hp with hp | hp
      · intro c hc _
        refine ⟨fun _ _ => trivial, fun o ho => ?_⟩
        obtain ⟨k, new, h1, _, _, h3, h4, _⟩ := (strTerm_res (fun _ _ _ _ => trivial) hp c).matched_inv ho
        exact ⟨by show o.pos ≤ o.str.length; rw [h3, h4]; exact h1 hc, fun _ _ => trivial, by omega, h4⟩
      · exact hU p hp
    · intro t _ n c asts _ _
      exact ⟨fun _ _ => trivial, fun _ _ _ _ => trivial⟩
  intro c o hc ho
  obtain ⟨h1, _, h2, h3⟩ := (key c hc (fun _ _ => trivial)).2 o ho
  exact ⟨h2, by rw [← h3]; exact h1, h3⟩

/-- Grammars for slice sources (`Match` allowed). -/
abbrev ObjPosGram : Gram → Prop :=
  Built (fun p => ObjTerm (fun _ => True) p) (fun _ => True) (fun _ => False) (fun _ => True) True

/-- **C08**, slice sources. -/
theorem C08_slice_position {env : Env} (henv : ∀ i, ObjPosGram (env i)) {g : Gram} (hg : ObjPosGram g)
    (n : Nat) : MovesInSlice (run env n g) := by
  have key : Obeys (fun c => c.pos ≤ sliceLen c) (fun _ => True) (fun a b => a.pos ≤ b.pos ∧ b.slice = a.slice)
      (fun _ => True) (run env n g) := by
    refine laws_objPos.closed.run (P := fun p => ObjTerm (fun _ => True) p) (T := fun _ => True) ?_ ?_
      (fun i => (henv i).mono_F fun f hf => hf.elim) n g (hg.mono_F fun f hf => hf.elim)
    · intro p hp c hc _
      refine ⟨fun _ _ => trivial, fun o ho => ?_⟩
      obtain ⟨k, new, h1, _, _, h3, _, h4⟩ := (objTerm_res (fun _ => trivial) hp c).matched_inv ho
      have : sliceLen o = sliceLen c := by unfold sliceLen; rw [h4]
      exact ⟨by show o.pos ≤ sliceLen o; rw [this, h3]; exact h1 hc, fun _ _ => trivial, by omega, h4⟩
    · intro t _ n c asts _ _
      exact ⟨fun _ _ => trivial, fun _ _ _ _ => trivial⟩
  intro c o src hs hc ho
  have hl : sliceLen c = src.items.length := by simp [sliceLen, hs]
  obtain ⟨h1, _, h2, h3⟩ := (key c (by show c.pos ≤ sliceLen c; rw [hl]; exact hc) (fun _ _ => trivial)).2 o ho
  have : sliceLen o = sliceLen c := by unfold sliceLen; rw [h3]
  exact ⟨h2, by rw [← hl, ← this]; exact h1, h3.trans hs⟩

/-! ### C09: no panics -/

/-- String grammars: string terminals, the base combinators (`Match` excepted), transformers that do not
panic, look-behind over distances that are not negative. -/
abbrev SafeGram : Gram → Prop := Built (StrTerm StrTyped) SafeTr (fun _ => False) (fun a => 0 ≤ a) False

/-- **C09.** A string grammar never panics, whatever bytes the source holds. -/
theorem C09_never_panics {env : Env} (henv : ∀ i, SafeGram (env i)) {g : Gram} (hg : SafeGram g)
    (n : Nat) (s : Bytes) (tag : Value) (x : Panic) : run env n g (newStrCtxTag s tag) ≠ .panic x := by
  have key : Obeys (fun c => c.pos ≤ c.str.length) StrTyped (fun a b => a.stack <+: b.stack ∧ b.str = a.str)
      (fun _ => False) (run env n g) := by
    refine laws_safe.closed.run (P := StrTerm StrTyped) (T := SafeTr) ?_ (fun t ht n => safeTr_obeys ht env n _)
      (fun i => (henv i).mono_F fun f hf => hf.elim) n g (hg.mono_F fun f hf => hf.elim)
    intro p hp c hc hA
    have hr := strTerm_res (fun cls v pos len _ => ⟨v, rfl⟩) hp c
    constructor
    · intro x hx
      rw [hx] at hr
      cases hr with
      | panic h => have : c.pos ≤ c.str.length := hc; omega
    · intro o ho
      obtain ⟨k, new, h1, h2, h3, h4, h5, _⟩ := hr.matched_inv ho
      refine ⟨by show o.pos ≤ o.str.length; rw [h4, h5]; exact h1 hc, ?_, ⟨new, h3.symm⟩, h5⟩
      intro a ha
      rw [h3] at ha
      rcases List.mem_append.1 ha with ha | ha
      · exact hA a ha
      · exact h2 a ha
  intro h
  exact (key _ (Nat.zero_le _) (by simp [newStrCtxTag, newStrCtx])).1 x h

/-- The condition on look-behind distances is needed: a negative distance looks ahead, past the end. -/
theorem C09_negative_distance_panics :
    run noEnv 2 (.lookBehind (-1) (-1) [.prim anyS]) (newStrCtx []) = .panic .index := rfl

/-- The condition on transformers is needed: `ParseUint` panics on the empty string. -/
theorem C09_parseUint_panics :
    run noEnv 4 (.trans (.star [.prim number]) [.fn parseUintT]) (newStrCtx []) = .panic .index := rfl

/-! ### C10: source and tag -/

/-- Whatever `p` returns, matched or not, source and tag are those of the given context. -/
def KeepsSource (p : Sem) : Prop :=
  ∀ c o e, p c = .ok (o, e) → o.str = c.str ∧ o.slice = c.slice ∧ o.tag = c.tag

/-- Any grammar; user-written parsers and callbacks have to keep the source, transformers are arbitrary
(they cannot return a context). -/
abbrev AnyGram : Gram → Prop :=
  Built (fun p => LibTerm p ∨ KeepsSource p) (fun _ => True) (fun f => ∀ k b, KeepsSource (f k b)) (fun _ => True) True

/-- **C10.** No library parser changes the source string, source slice or user tag. -/
theorem C10_source_and_tag {env : Env} (henv : ∀ i, AnyGram (env i)) {g : Gram} (hg : AnyGram g) (n : Nat) :
    KeepsSource (run env n g) := by
  refine frames_closed.run (P := fun p => LibTerm p ∨ KeepsSource p) (T := fun _ => True) ?_ (fun _ _ _ => trivial)
    (fun i => (henv i).mono_F fun f hf => hf) n g (hg.mono_F fun f hf => hf)
  intro p hp
  rcases hp with hp | hp
  · intro c o e h
    obtain ⟨Bad, L, hr⟩ := libTerm_res hp c
    rw [h] at hr
    exact hr.frames
  · exact hp

/-! ### C11: error value and status -/

/-- A returned error comes with status error. -/
def MarksErrors (p : Sem) : Prop := ∀ c o e, p c = .ok (o, some e) → o.status = .error

/-- **C11.** Whenever a library parser returns an error, the returned context has status error — also if
callbacks and transformers are arbitrary. Only a bare user-written `ParserFn` may break the rule, and
only as long as it is not wrapped by a combinator. -/
theorem C11_error_status {env : Env}
    (henv : ∀ i, Built (fun p => LibTerm p ∨ MarksErrors p) (fun _ => True) (fun _ => True) (fun _ => True) True (env i))
    {g : Gram}
    (hg : Built (fun p => LibTerm p ∨ MarksErrors p) (fun _ => True) (fun _ => True) (fun _ => True) True g)
    (n : Nat) : MarksErrors (run env n g) := by
  refine marks_closed.run (P := fun p => LibTerm p ∨ MarksErrors p) (T := fun _ => True) ?_ (fun _ _ _ => trivial)
    henv n g hg
  intro p hp
  rcases hp with hp | hp
  · intro c o e h
    obtain ⟨Bad, L, hr⟩ := libTerm_res hp c
    rw [h] at hr
    exact hr.marks
  · exact hp

/-! ### The hypotheses are met by the example grammars -/

/-- The formula grammar with its production rules, recursive through `Indirect`. -/
example : (∀ i, StackGram (Formula.env i)) ∧ StackGram Formula.program := by
  constructor
  · intro i; built [Formula.env, Formula.groupedExpression, Formula.sp0, Formula.expression, Formula.expressionInner,
      Formula.unaryOperator, Formula.simpleExpression, Formula.numberG, Formula.binaryOperator,
      Extra.integerNumberStr, Extra.plusMinus, Extra.zeroLit, Extra.digits, Extra.eraseUnderscore, Extra.digitOr_]
  · built [Formula.program, Formula.sp0, Formula.expression, Formula.expressionInner,
      Formula.unaryOperator, Formula.simpleExpression, Formula.numberG, Formula.binaryOperator,
      Extra.integerNumberStr, Extra.plusMinus, Extra.zeroLit, Extra.digits, Extra.eraseUnderscore, Extra.digitOr_]

/-- The CSV grammar. -/
example : StackGram Csv.document ∧ StrPosGram Csv.document ∧ AnyGram Csv.document := by
  built [Csv.document, Csv.line, Csv.quotedCell, Csv.cell, Csv.quotedChunk, Csv.quotedChar, Csv.sp]

example : ∃ o, Outcome.of (run noEnv 4 (.flatGroup [.prim alpha, .prim number])
    { newStrCtx b! "a12" with stack := [Ast.zero] }) = .matched o ∧ o.stack.length = 3 ∧ o.pos = 2 :=
  ⟨_, rfl, rfl, rfl⟩

/-- The check parser of the formula's production rules: a parser of a slice of ASTs. -/
example : ObjPosGram Formula.checkG := by
  refine .flatGroup (List.forall_mem_cons.2 ⟨.prim (.base .start), List.forall_mem_cons.2 ⟨.prim .any,
    List.forall_mem_cons.2 ⟨.prim .end, List.forall_mem_nil _⟩⟩⟩)

/-- The number and identifier parsers of package extra never panic. -/
theorem C09_extra (u : Extra.UnicodeTables) (g : Gram)
    (hg : g ∈ [Extra.binaryNumberStr, Extra.octalNumberStr, Extra.hexNumberStr, Extra.integerNumberStr,
      Extra.floatNumberStr, Extra.numericStr, Extra.asciiIdentifierStr, Extra.unicodeIdentifierStr u])
    (n : Nat) (s : Bytes) (x : Panic) : run noEnv n g (newStrCtx s) ≠ .panic x := by
  refine C09_never_panics (fun _ => .prim (.base .unmatched)) ?_ n s .nil x
  simp only [List.mem_cons, List.not_mem_nil, or_false] at hg
  rcases hg with rfl | rfl | rfl | rfl | rfl | rfl | rfl | rfl
  · built [Extra.binaryNumberStr, Extra.eraseUnderscore]
  · built [Extra.octalNumberStr, Extra.eraseUnderscore]
  · built [Extra.hexNumberStr, Extra.eraseUnderscore]
  · built [Extra.integerNumberStr, Extra.plusMinus, Extra.zeroLit, Extra.digits, Extra.eraseUnderscore, Extra.digitOr_]
  · built [Extra.floatNumberStr, Extra.plusMinus, Extra.zeroLit, Extra.digits, Extra.eraseUnderscore, Extra.digitOr_,
      Extra.exponentStr, Extra.dot]
  · built [Extra.numericStr, Extra.plusMinus, Extra.zeroLit, Extra.digits, Extra.eraseUnderscore, Extra.digitOr_,
      Extra.exponentStr, Extra.dot]
  · built [Extra.asciiIdentifierStr]
  · built [Extra.unicodeIdentifierStr]

example : ∃ o e, run noEnv 3 (.flatGroup [.prim alpha, .prim (errorP "no")]) (newStrCtxTag b! "ab" (.opaque 7)) =
    .ok (o, some e) ∧ o.status = .error ∧ o.tag = .opaque 7 := ⟨_, _, rfl, rfl, rfl⟩

end Takenoco
