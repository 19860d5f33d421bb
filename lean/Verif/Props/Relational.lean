import Verif.Lemmas.Moved
import Verif.Spec.Peg
import Verif.Model.Examples.Formula
/-
C79: a grammar finds in the middle of a source what it finds in the rest of the source alone.
-/
namespace Takenoco
open Spec

/-- The transformers that C79 allows: functions that do not look at places, and production rules made of such functions. -/
abbrev PlaceTr : Tr → Prop := BlindTr Blind

/-- The grammars that C79 allows for the source `pre ++ s` behind `pre`, in a context with the ASTs `below` on the stack. The user's
callbacks must not look at what is before the place they are called at. -/
abbrev PlaceGram (pre s : Bytes) (below : List Ast) : Gram → Prop :=
  Steady (PlaceTerm pre s) PlaceTr (RespectsF (MovedBy (· = s) pre) SameBut below) True

/-- The ends of a parser: from the start of a source, and from the context `c` behind `pre`. -/
inductive MovedEnd (pre : Bytes) (c : Ctx) : Outcome → Outcome → Prop where
  | matched {o o' : Ctx} {new : List Ast} : o'.pos = pre.length + o.pos → o'.stack = c.stack ++ new → Each SameBut o.stack new →
      MovedEnd pre c (.matched o) (.matched o')
  | unmatched : MovedEnd pre c .unmatched .unmatched
  | failed {o o' : Ctx} {e : Option Err} : o'.pos = pre.length + o.pos → MovedEnd pre c (.failed o e) (.failed o' e)
  | panicked {p : Panic} : MovedEnd pre c (.panicked p) (.panicked p)
  | timedOut : MovedEnd pre c .timedOut .timedOut

theorem placeTerm_respects {pre s : Bytes} {below : List Ast} {p : Sem} (h : PlaceTerm pre s p) : Respects (MovedBy (· = s) pre) SameBut below p := by
  cases h with
  | forward h => exact forward_respects h
  | wordBoundary h1 h2 => exact light_respects (wordBoundary_moved h1 fun _ h => h ▸ h2)
  | unicodeWordBoundary u h1 h2 => exact light_respects (wordBoundary_moved h1 fun _ h => h ▸ h2)

theorem linkedRes_end {pre s : Bytes} {c : Ctx} {x y : Out PRes} (h : OutR (LinkedRes (MovedBy (· = s) pre) SameBut c.stack) x y) :
    MovedEnd pre c (Outcome.of x) (Outcome.of y) := by
  cases h with
  | panic => exact .panicked
  | timeout => exact .timedOut
  | @ok r r' h =>
    obtain ⟨o, e⟩ := r
    obtain ⟨o', e'⟩ := r'
    obtain ⟨he, h⟩ := h
    simp only at he h
    subst he
    obtain ⟨new, h3, h4⟩ := h.stack
    have h2 : o'.pos = pre.length + o.pos := h.cursor.2.1
    cases e' with
    | some e => exact .failed h2
    | none =>
      have h5 := h.status
      simp only [Outcome.of]
      rw [h5]
      cases o.status with
      | matched => exact .matched h2 h3 h4
      | unmatched => exact .unmatched
      | error => exact .failed h2

/-- **C79**: whatever has been parsed before and whatever is on the stack, behind `pre` a grammar ends as it does on the rest of the
source alone: with the same ASTs but for their places, with the same error at the same distance, or unmatched like it. -/
theorem C79_anywhere {env : Env} {pre s : Bytes} {c : Ctx} {g : Gram} (hs : c.str = pre ++ s) (hp : c.pos = pre.length) (hm : c.status = .matched)
    (he : ∀ x, PlaceGram pre s c.stack (env x)) (hg : PlaceGram pre s c.stack g) (n : Nat) :
    MovedEnd pre c (Outcome.of (run env n g (newStrCtx s))) (Outcome.of (run env n g c)) := by
  refine linkedRes_end (run_respects (fun p => placeTerm_respects) (fun f h => h) (blind_respectsT grouping_blind _ _) (fun _ => he) n
    (fun m _ t ht => blind_respectsT (blindTr_blind (fun t h => h) env m t ht) _ _) g hg _ _ ?_)
  exact ⟨⟨hs, hp, rfl⟩, hm, [], by simp, .nil⟩

/-- **C79**, the library: its transformers are allowed, except for `ToSlice`, which asks the context for the kind of the slice. -/
theorem C79_library {t : TSem} (h : LibTr t) (hs : t ≠ toSlice) : PlaceTr (.fn t) := .fn (libTr_blind h hs)

/-! ### The formula example -/

namespace Formula

theorem sameBut_val {a b : Ast} (h : SameBut a b) : SameVal a.val b.val := by cases h with | mk _ _ _ h => exact h
theorem sameBut_cls {a b : Ast} (h : SameBut a b) : b.cls = a.cls := by cases h with | mk _ h _ _ => exact h

theorem asInt_same {v w : Value} (h : SameVal v w) : asInt w = asInt v := by
  rcases sameVal_cases h with e | ⟨_, _, _, _, e1, e2⟩ | ⟨_, _, e1, e2⟩ | ⟨_, _, e1, e2⟩
  · rw [e]
  all_goals rw [e1, e2]; rfl

theorem numberTr_blind : Blind numberTr := by
  intro c c' l m h
  unfold numberTr
  cases h with
  | nil => exact .panic
  | @cons a b l m h _ =>
    simp only
    rw [asStr_same (sameBut_val h)]
    repeat' split
    · exact .panic
    · exact .timeout
    · exact .ok ⟨rfl, fun h => nomatch h⟩
    · exact .ok ⟨rfl, fun _ => .cons (.refl _) .nil⟩

theorem unwrap_blind : Blind unwrapOperandItem := by
  intro c c' l m h
  unfold unwrapOperandItem
  cases h with
  | nil => exact .panic
  | @cons a b l m h _ =>
    have h := sameBut_val h
    revert h
    simp only
    generalize a.val = v, b.val = w
    intro h
    cases h with
    | refl =>
      split
      · exact .ok ⟨rfl, fun _ => .cons (.refl _) .nil⟩
      · exact .panic
    | cons => exact .panic
    | list => exact .panic
    | ast h => exact .ok ⟨rfl, fun _ => .cons h .nil⟩

theorem goGet_same {l m : List Ast} (h : Each SameBut l m) (i : Nat) :
    (goGet l i = .panic .index ∧ goGet m i = .panic .index) ∨ ∃ a b, goGet l i = .ok a ∧ goGet m i = .ok b ∧ SameBut a b := by
  unfold goGet
  rcases h.get i with ⟨h1, h2⟩ | ⟨a, b, h1, h2, h3⟩
  · rw [h1, h2]; exact .inl ⟨rfl, rfl⟩
  · rw [h1, h2]; exact .inr ⟨a, b, rfl, rfl, h3⟩

theorem getStr_same {l m : List Ast} (h : Each SameBut l m) (i : Nat) :
    (do let a ← goGet m i; asStr a.val) = (do let a ← goGet l i; asStr a.val) := by
  rcases goGet_same h i with ⟨h1, h2⟩ | ⟨a, b, h1, h2, h3⟩
  · rw [h1, h2]
  · rw [h1, h2]; exact asStr_same (sameBut_val h3)

theorem getInt_same {l m : List Ast} (h : Each SameBut l m) (i : Nat) :
    (do let a ← goGet m i; asInt a.val) = (do let a ← goGet l i; asInt a.val) := by
  rcases goGet_same h i with ⟨h1, h2⟩ | ⟨a, b, h1, h2, h3⟩
  · rw [h1, h2]
  · rw [h1, h2]; exact asInt_same (sameBut_val h3)

theorem answer_refl {x : Out (List Ast × Option Err)} : OutR SameAnswer x x := by
  cases x with
  | ok r => exact .ok ⟨rfl, fun _ => .refl (fun _ => .refl _) _⟩
  | panic => exact .panic
  | timeout => exact .timeout

theorem of_eq {t : TSem} (h : ∀ c c' l m, Each SameBut l m → t c' m = t c l) : Blind t := fun c c' l m hl => by
  rw [h c c' l m hl]; exact answer_refl

theorem bind_get {α β γ : Type} (x : Out α) (f : α → Out β) (k : β → Out γ) : (x >>= fun a => f a >>= k) = ((x >>= f) >>= k) := by
  cases x <;> rfl

theorem unaryTr_blind : Blind unaryTr := of_eq fun c c' l m h => by
  unfold unaryTr
  simp only [bind_get, getStr_same h, getInt_same h]

theorem mulDivTr_blind : Blind mulDivTr := of_eq fun c c' l m h => by
  unfold mulDivTr
  simp only [bind_get, getStr_same h, getInt_same h]

theorem addSubTr_blind : Blind addSubTr := of_eq fun c c' l m h => by
  unfold addSubTr
  simp only [bind_get, getStr_same h, getInt_same h]

theorem matcher_same (cls : String) (ops : List Bytes) (a b : Ast) (h : SameBut a b) : makeOpMatcher cls ops (.ast b) = makeOpMatcher cls ops (.ast a) := by
  unfold makeOpMatcher
  simp only
  rw [sameBut_cls h, asStr_same (sameBut_val h)]

theorem anyOperand_blind : BlindGram Blind anyOperand := .trans (.prim .any) (by simpa using BlindTr.fn unwrap_blind)

theorem isOperator_blind (cls : String) (ops : List Bytes) : BlindGram Blind (isOperator cls ops) :=
  .trans (.prim (.objClassFn _ (matcher_same cls ops))) (by simpa using BlindTr.fn unwrap_blind)

theorem rules_blind : PlaceTr formulaProductionRules := by
  refine .production ?_ (.flatGroup ?_)
  · intro p hp g hg
    simp only [precedences, List.mem_cons, List.not_mem_nil, or_false] at hp
    rcases hp with rfl | rfl | rfl <;> simp only [List.mem_cons, List.not_mem_nil, or_false] at hg <;> subst hg
    · exact .trans (.flatGroup (by simpa using ⟨isOperator_blind _ _, anyOperand_blind⟩)) (by simpa using BlindTr.fn unaryTr_blind)
    · exact .trans (.flatGroup (by simpa using ⟨anyOperand_blind, isOperator_blind _ _, anyOperand_blind⟩)) (by simpa using BlindTr.fn mulDivTr_blind)
    · exact .trans (.flatGroup (by simpa using ⟨anyOperand_blind, isOperator_blind _ _, anyOperand_blind⟩)) (by simpa using BlindTr.fn addSubTr_blind)
  · simpa using ⟨BlindGram.prim .start, BlindGram.prim .any, BlindGram.prim .end⟩

theorem erase_place : PlaceTr (.fn erase) := C79_library .erase (fun h => by
  have := congrFun (congrFun h (newStrCtx [])) []
  cases this)
theorem concat_place : PlaceTr (.fn concat) := .fn concat_blind
theorem changeClassName_place (s : String) : PlaceTr (.fn (changeClassName s)) := C79_library (.changeClassName s) (fun h => by
  have := congrFun (congrFun h (newStrCtx [])) []
  cases this)

section
variable {pre s : Bytes} {below : List Ast} (h1 : EndsClean isWord pre) (h2 : StartsClean s)
include h1 h2

theorem number_place : PlaceGram pre s below numberG := by
  simp only [numberG, sp0, Extra.integerNumberStr, Extra.zeroLit, Extra.digits, Extra.digitOr_, Extra.plusMinus, Extra.eraseUnderscore, Gram.opt, Gram.star, Gram.erased,
    steady_prim, steady_flatGroup, steady_first, steady_repeat, steady_trans, List.forall_mem_cons, List.not_mem_nil, false_implies, implies_true, and_true,
    erase_place, concat_place, changeClassName_place, BlindTr.fn numberTr_blind]
  exact ⟨⟨.forward (.charClass _), ⟨.forward (.charClass _), .forward (.charClass _)⟩, .forward .number, .forward .number, .forward (.charClass _)⟩,
    .wordBoundary h1 h2, .forward .whitespace⟩

theorem inner_place : PlaceGram pre s below expression := by
  have hn : PlaceGram pre s below numberG := number_place h1 h2
  simp only [expression, expressionInner, simpleExpression, unaryOperator, binaryOperator, sp0, Gram.star, Gram.erased,
    steady_prim, steady_flatGroup, steady_first, steady_repeat, steady_trans, steady_indirect, List.forall_mem_cons, List.not_mem_nil, false_implies, implies_true, and_true,
    erase_place, changeClassName_place, rules_blind, hn, true_and]
  exact ⟨⟨.forward (.charClass _), .forward .whitespace⟩, ⟨⟨.forward (.charClass _), .forward .whitespace⟩, .forward (.error _)⟩,
    ⟨.forward (.charClass _), .forward .whitespace⟩, ⟨⟨.forward (.charClass _), .forward .whitespace⟩, .forward (.charClass _), .forward .whitespace⟩, .forward (.error _)⟩

theorem grouped_place : PlaceGram pre s below groupedExpression := by
  have hn : PlaceGram pre s below expression := inner_place h1 h2
  simp only [groupedExpression, sp0, Gram.star, Gram.erased,
    steady_prim, steady_flatGroup, steady_first, steady_repeat, steady_trans, List.forall_mem_cons, List.not_mem_nil, false_implies, implies_true, and_true,
    erase_place, hn, true_and]
  exact ⟨.forward (.charClass _), ⟨.forward .whitespace, .forward (.charClass _), .forward .whitespace⟩, .forward (.error _)⟩
end

/-- **C79**, the formula example: behind a text that ends with an ASCII character that is no word character, an expression is found,
and evaluated, as on its own. -/
theorem C79_formula {pre s : Bytes} {c : Ctx} (hs : c.str = pre ++ s) (hp : c.pos = pre.length) (hm : c.status = .matched)
    (h1 : EndsClean isWord pre) (h2 : StartsClean s) (n : Nat) :
    MovedEnd pre c (Outcome.of (run env n expression (newStrCtx s))) (Outcome.of (run env n expression c)) :=
  C79_anywhere hs hp hm (fun _ => grouped_place h1 h2) (inner_place h1 h2) n

end Formula

/-! ### What looks back is different -/

/-- **C79**, the other side: `Start` looks at what is before. -/
theorem C79_start : ∃ (pre s : Bytes) (c : Ctx), c.str = pre ++ s ∧ c.pos = pre.length ∧ c.status = .matched ∧
    ¬ MovedEnd pre c (Outcome.of (run noEnv 1 (.prim startP) (newStrCtx s))) (Outcome.of (run noEnv 1 (.prim startP) c)) := by
  refine ⟨[0x61], [0x62], { newStrCtx [0x61, 0x62] with pos := 1 }, rfl, rfl, rfl, ?_⟩
  have e1 : ∃ c, Outcome.of (run noEnv 1 (.prim startP) (newStrCtx [0x62])) = .matched c := ⟨_, rfl⟩
  have e2 : Outcome.of (run noEnv 1 (.prim startP) { newStrCtx [0x61, 0x62] with pos := 1 }) = .unmatched := rfl
  obtain ⟨c, e1⟩ := e1
  rw [e1, e2]
  intro h
  cases h

/-- **C79**, the other side: so does `WordBoundary`, if the cut is not clean; here between two letters. -/
theorem C79_word : ∃ (pre s : Bytes) (c : Ctx), c.str = pre ++ s ∧ c.pos = pre.length ∧ c.status = .matched ∧ StartsClean s ∧
    ¬ MovedEnd pre c (Outcome.of (run noEnv 1 (.prim wordBoundary) (newStrCtx s))) (Outcome.of (run noEnv 1 (.prim wordBoundary) c)) := by
  refine ⟨[0x61], [0x62], { newStrCtx [0x61, 0x62] with pos := 1 }, rfl, rfl, rfl, fun b s' h => by cases h; decide, ?_⟩
  have e1 : ∃ c, Outcome.of (run noEnv 1 (.prim wordBoundary) (newStrCtx [0x62])) = .matched c := ⟨_, rfl⟩
  have e2 : Outcome.of (run noEnv 1 (.prim wordBoundary) { newStrCtx [0x61, 0x62] with pos := 1 }) = .unmatched := rfl
  obtain ⟨c, e1⟩ := e1
  rw [e1, e2]
  intro h
  cases h

/-- **C79**, the other side: and look-behind. -/
theorem C79_behind : ∃ (pre s : Bytes) (c : Ctx), c.str = pre ++ s ∧ c.pos = pre.length ∧ c.status = .matched ∧
    ¬ MovedEnd pre c (Outcome.of (run noEnv 2 (.lookBehind 1 1 [.prim anyS]) (newStrCtx s))) (Outcome.of (run noEnv 2 (.lookBehind 1 1 [.prim anyS]) c)) := by
  refine ⟨[0x61], [0x62], { newStrCtx [0x61, 0x62] with pos := 1 }, rfl, rfl, rfl, ?_⟩
  have e1 : Outcome.of (run noEnv 2 (.lookBehind 1 1 [.prim anyS]) (newStrCtx [0x62])) = .unmatched := by cbv
  have e2 : ∃ c, Outcome.of (run noEnv 2 (.lookBehind 1 1 [.prim anyS]) { newStrCtx [0x61, 0x62] with pos := 1 }) = .matched c := ⟨_, by cbv⟩
  obtain ⟨c, e2⟩ := e2
  rw [e1, e2]
  intro h
  cases h

/-! ### Concrete cases -/

/-- The hypotheses of C79_formula hold for the right side of an assignment. -/
example : ∃ (pre s : Bytes) (c : Ctx), c.str = pre ++ s ∧ c.pos = pre.length ∧ c.status = .matched ∧ EndsClean isWord pre ∧ StartsClean s ∧ pre ≠ [] ∧ c.stack ≠ [] :=
  ⟨b! "x = ", b! "-(1 + 2)", { newStrCtx (b! "x = -(1 + 2)") with pos := 4, stack := [Ast.zero] }, by decide, by decide, rfl,
    .inr ⟨b! "x =", 0x20, by decide, by decide, by decide⟩, fun b s' h => by cases h; decide, by decide, by simp⟩

/-- A grammar with a production rule is allowed: the number of the formula example behind a blank. -/
example : PlaceGram (b! "x = ") (b! "-(1 + 2)") [Ast.zero] Formula.expression :=
  Formula.inner_place (.inr ⟨b! "x =", 0x20, by decide, by decide, by decide⟩) (fun b s' h => by cases h; decide)

/-- Two letters are found behind any text, after anything. -/
example (pre : Bytes) (stack : List Ast) (n : Nat) :
    MovedEnd pre { newStrCtx (pre ++ b! "ab") with pos := pre.length, stack := stack }
      (Outcome.of (run noEnv n (.trans (.repeat ⟨1, -1⟩ [.prim alpha]) [.fn concat]) (newStrCtx (b! "ab"))))
      (Outcome.of (run noEnv n (.trans (.repeat ⟨1, -1⟩ [.prim alpha]) [.fn concat]) { newStrCtx (pre ++ b! "ab") with pos := pre.length, stack := stack })) := by
  refine C79_anywhere rfl rfl rfl (fun _ => ?_) ?_ n
  · exact .prim (.forward .unmatched)
  · exact .trans (.repeat (by simpa using Steady.prim (.forward .alpha))) (by simpa using Formula.concat_place)

end Takenoco
