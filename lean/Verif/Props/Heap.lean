import Verif.Lemmas.HeapRun
import Verif.Lemmas.Invariants
import Verif.Lemmas.BuiltSimp
import Verif.Model.Examples.Csv
import Verif.Model.Examples.Formula
/-
C45: backtracking with shared memory.
-/
namespace Takenoco
open Spec

/-- **C45.** A grammar without `Match`, executed with stacks that share arrays, ends exactly as it does with immutable lists: the same
result, error or panic. It does not matter what else is in memory, and how `append` chooses capacities. -/
theorem C45_simulates (w : World) {env : Env} (he : ∀ x, MatchFree (env x)) {g : Gram} (hg : MatchFree g) (n : Nat) (m : Mem) (c : HCtx) (hc : Usable m c) :
    observe (Heap.run w env n g c m) = run env n g (c.view m) := by
  rcases ((Heap.run_refines w he n).1 g hg c m hc).cases with ⟨⟨o, e⟩, m', ⟨o', e'⟩, h1, h2, h3, h4, -⟩ | ⟨x, h1, h2⟩ | ⟨h1, h2⟩
  · rw [h1, h2]; simp only at h3 h4; rw [observe, h3, h4]
  · rw [h1, h2]; rfl
  · rw [h1, h2]; rfl

/-- A context that was saved before the run, and whose stack and source are not behind the top of the stack of the context the parser
is called with, is afterwards what it was. -/
theorem C45_saved (w : World) {env : Env} (he : ∀ x, MatchFree (env x)) {g : Gram} (hg : MatchFree g) (n : Nat) (m : Mem) (c : HCtx) (hc : Usable m c)
    (d : HCtx) (hd : Usable m d) (hb : Below c.stack d) (r : HRes) (m' : Mem) (h : Heap.run w env n g c m = .ok (r, m')) : d.view m' = d.view m := by
  rcases ((Heap.run_refines w he n).1 g hg c m hc).cases with ⟨r', m2, o', h1, h2, h3, h4, h5⟩ | ⟨x, h1, h2⟩ | ⟨h1, h2⟩
  · rw [h] at h1
    injection h1 with h1
    injection h1 with h6 h7
    subst h6 h7
    simp only [HCtx.view]
    rw [h5.frame.read hd.arr hb.1]
    congr 1
    cases hs : d.slice with
    | none => rfl
    | some s =>
      cases s with
      | other s => rfl
      | asts s =>
        simp only [Option.map_some, Mem.src]
        rw [h5.frame.read (hd.src s hs).1 (hb.2 s hs)]
  · rw [h] at h1; cases h1
  · rw [h] at h1; cases h1

/-- The context itself can be used again: this is what `First`, `Repeat` and look-ahead do. -/
theorem C45_rewind (w : World) {env : Env} (he : ∀ x, MatchFree (env x)) {g : Gram} (hg : MatchFree g) (n : Nat) (m : Mem) (c : HCtx) (hc : Usable m c)
    (r : HRes) (m' : Mem) (h : Heap.run w env n g c m = .ok (r, m')) : c.view m' = c.view m ∧ Usable m' c := by
  refine ⟨C45_saved w he hg n m c hc c hc ⟨fun _ => Nat.le_refl _, fun t ht h => absurd h (hc.src t ht).2⟩ r m' h, ?_⟩
  rcases ((Heap.run_refines w he n).1 g hg c m hc).cases with ⟨r', m2, o', h1, h2, h3, h4, h5⟩ | ⟨x, h1, h2⟩ | ⟨h1, h2⟩
  · rw [h] at h1
    injection h1 with h1
    injection h1 with h6 h7
    subst h6 h7
    exact Heap.usable_later hc h5.frame.1
  · rw [h] at h1; cases h1
  · rw [h] at h1; cases h1

/-- A parser called with a new context for a text, with anything in memory. -/
theorem C45_text (w : World) {env : Env} (he : ∀ x, MatchFree (env x)) {g : Gram} (hg : MatchFree g) (n : Nat) (s : Bytes) (m : Mem) :
    observe ((Heap.newStrCtx s >>= fun c => Heap.run w env n g c) m) = run env n g (newStrCtx s) := by
  obtain ⟨t, m', h1, h2, h3, h4, h5, h6, h7⟩ := Heap.make_spec [] 1024 m (by simp)
  have h8 : Heap.newStrCtx s m = .ok ({ str := s, slice := none, pos := 0, len := 0, qty := 0, stack := t, status := .matched, cls := "", tag := .nil }, m') := by
    unfold Heap.newStrCtx; rw [Heap.bind_ok_run h1]; rfl
  rw [Heap.bind_ok_run h8, C45_simulates w he hg n m' _ ⟨h5, h7, by intro _ h; cases h⟩]
  simp only [HCtx.view, newStrCtx, Option.map_none, h2]

/-- Capacities cannot be observed. -/
theorem C45_growth (w w' : World) {env : Env} (he : ∀ x, MatchFree (env x)) {g : Gram} (hg : MatchFree g) (n : Nat) (s : Bytes) (m m' : Mem) :
    observe ((Heap.newStrCtx s >>= fun c => Heap.run w env n g c) m) = observe ((Heap.newStrCtx s >>= fun c => Heap.run w' env n g c) m') := by
  rw [C45_text w he hg, C45_text w' he hg]

/-- Slicing from the left does not change where the array ends: `append` to `s[k:]` writes to the shared array exactly when `append` to
`s` does, and then to the same cells. -/
theorem C45_from (w : World) (m : Mem) {s : Slice} (hs : s.len ≤ s.cap) {k : Nat} (hk : k ≤ s.len) (l : List Ast) :
    (s.len + l.length ≤ s.cap → ∃ t m', Heap.append w s l m = .ok (t, m') ∧ t.arr = s.arr ∧ Heap.append w (Heap.from_ s k) l m = .ok (Heap.from_ t k, m')) ∧
    (s.cap < s.len + l.length → ∃ t m', Heap.append w (Heap.from_ s k) l m = .ok (t, m') ∧ t.arr = m.next) := by
  constructor
  · intro h
    refine ⟨_, _, if_pos h, rfl, ?_⟩
    have h' : (Heap.from_ s k).len + l.length ≤ (Heap.from_ s k).cap := by simp only [Heap.from_]; omega
    refine (if_pos h').trans ?_
    simp only [Heap.from_, Out.ok.injEq, Prod.mk.injEq, Slice.mk.injEq, true_and, and_true]
    refine ⟨by omega, ?_⟩
    rw [show s.off + k + (s.len - k) = s.off + s.len by omega]
  · intro h
    have h' : ¬ (Heap.from_ s k).len + l.length ≤ (Heap.from_ s k).cap := by simp only [Heap.from_]; omega
    exact ⟨_, _, if_neg h', rfl⟩

/-! ### Which grammars this covers -/

/-- The terminals of the library only push. -/
theorem C45_library {p : Sem} (h : LibTerm p) : Appends p := by
  intro c o e ho
  obtain ⟨Bad, L, hr⟩ := libTerm_res h c
  rw [ho] at hr
  cases hr with
  | unmatched => exact ⟨rfl, List.prefix_rfl⟩
  | error => exact ⟨rfl, List.prefix_rfl⟩
  | matched _ _ => exact ⟨rfl, List.prefix_append _ _⟩

theorem matchFree_prim {p : Sem} : MatchFree (.prim p) ↔ Appends p := ⟨fun h => by cases h; assumption, .prim⟩
theorem matchFree_flatGroup {gs : List Gram} : MatchFree (.flatGroup gs) ↔ ∀ g ∈ gs, MatchFree g := ⟨fun h => by cases h; assumption, .flatGroup⟩
theorem matchFree_first {gs : List Gram} : MatchFree (.first gs) ↔ ∀ g ∈ gs, MatchFree g := ⟨fun h => by cases h; assumption, .first⟩
theorem matchFree_repeat {t : Times} {gs : List Gram} : MatchFree (.repeat t gs) ↔ ∀ g ∈ gs, MatchFree g := ⟨fun h => by cases h; assumption, .repeat⟩
theorem matchFree_trans {g : Gram} {trs : List Tr} : MatchFree (.trans g trs) ↔ MatchFree g ∧ ∀ t ∈ trs, MatchFreeTr t :=
  ⟨fun h => by cases h; constructor <;> assumption, fun h => .trans h.1 h.2⟩
theorem matchFree_indirect {i : Nat} : MatchFree (.indirect i) ↔ True := ⟨fun _ => trivial, fun _ => .indirect⟩
theorem matchFreeTr_fn {t : TSem} : MatchFreeTr (.fn t) ↔ True := ⟨fun _ => trivial, fun _ => .fn⟩
theorem matchFreeTr_production {precs : List (List Gram × Bool)} {check : Gram} : MatchFreeTr (.production precs check) ↔
    (∀ p ∈ precs, ∀ g ∈ p.1, MatchFree g) ∧ MatchFree check := ⟨fun h => by cases h; constructor <;> assumption, fun h => .production h.1 h.2⟩
theorem appends_str {p : Sem} (h : StrTerm (fun _ => True) p) : Appends p ↔ True := iff_true_intro (C45_library (.inl h))
theorem appends_objAny : Appends objAny ↔ True := iff_true_intro (C45_library (.inr .any))
theorem appends_objEnd : Appends objEnd ↔ True := iff_true_intro (C45_library (.inr .end))
theorem appends_objClassFn {f : Value → Out Bool} : Appends (objClassFn f) ↔ True := iff_true_intro (C45_library (.inr (.objClassFn f)))

/-- Proves that a concrete grammar is covered. -/
macro "matchfree" "[" ds:Lean.Parser.Tactic.simpLemma,* "]" : tactic => `(tactic|
  simp only [$ds,*, Gram.erased, Gram.star, Gram.plus, Gram.opt, Gram.one, Extra.range, Extra.seqG,
    List.forall_mem_cons, List.not_mem_nil, matchFree_prim, matchFree_flatGroup, matchFree_first, matchFree_repeat, matchFree_trans,
    matchFree_indirect, matchFreeTr_fn, matchFreeTr_production, appends_str, appends_objAny, appends_objEnd, appends_objClassFn,
    strTerm_any, strTerm_end, strTerm_seq, strTerm_charRange, strTerm_charClass, strTerm_charClassN,
    strTerm_charClassFn, strTerm_whitespace, strTerm_whitespaceNoLineBreak, strTerm_lineBreak, strTerm_alpha,
    strTerm_number, strTerm_alnum, strTerm_wordBoundary, strTerm_error, strTerm_unmatched, strTerm_start,
    true_or, or_true, and_true, true_and, false_implies, implies_true, and_self])

/-- The csv example. -/
theorem C45_csv (w : World) (n : Nat) (s : Bytes) (m : Mem) :
    observe ((Heap.newStrCtx s >>= fun c => Heap.run w noEnv n Csv.document c) m) = run noEnv n Csv.document (newStrCtx s) :=
  C45_text w (fun _ => by matchfree [noEnv])
    (by matchfree [Csv.document, Csv.line, Csv.quotedCell, Csv.cell, Csv.quotedChunk, Csv.quotedChar, Csv.sp]) n s m

/-- The formula example, with its production rules. -/
theorem C45_formula (w : World) (n : Nat) (s : Bytes) (m : Mem) :
    observe ((Heap.newStrCtx s >>= fun c => Heap.run w Formula.env n Formula.program c) m) = run Formula.env n Formula.program (newStrCtx s) := by
  have he : MatchFree Formula.expression := by
    matchfree [Formula.expression, Formula.expressionInner, Formula.simpleExpression, Formula.numberG, Formula.unaryOperator, Formula.binaryOperator,
      Formula.sp0, Extra.integerNumberStr, Extra.plusMinus, Extra.zeroLit, Extra.digits, Extra.digitOr_, Extra.eraseUnderscore,
      Formula.formulaProductionRules, Formula.precedences, Formula.checkG, Formula.unaryRule, Formula.mulDivRule, Formula.addSubRule,
      Formula.anyOperand, Formula.isOperator]
  refine C45_text w (fun _ => ?_) ?_ n s m
  · matchfree [Formula.env, Formula.groupedExpression, Formula.sp0, he]
  · matchfree [Formula.program, Formula.sp0, he]

/-! ### `Match`, and callbacks that replace what earlier rounds have pushed -/

/-- Every array is as large as it has to be, and every slice that a transformer returns is new. -/
def plainWorld : World := { spare := fun _ _ _ => 0, part := fun _ _ _ => none, part_spec := fun _ _ _ _ h => nomatch h }

/-- Memory in which nothing has been allocated. -/
def noMem : Mem := { next := 0, cell := fun _ _ => default }

/-- The types of the ASTs on the stack. -/
def stackTypes : Out PRes → List AstType
  | .ok (o, _) => o.stack.map (·.ty)
  | _ => []

/-- `FlatGroup(Any(), First(FlatGroup(Match(1)(Case{TopIsAny, SetValue(…)}), Unmatched()), Zero()))` -/
def matchInFirst : Gram :=
  .flatGroup [.prim anyS, .first [.flatGroup [.match 1 [(topIsAny, [.fn (setValue .int (.int 0))])], .prim unmatchedP], .prim (zeroP [])]]

/-- `Match` replaces ASTs below the top of the stack by `append(ctx.AstStack[:sp], …)`, which writes to the array that a saved context
refers to. When the alternative fails later, `First` goes on with a saved context that has changed: with "a" the alternative that
matches does not touch the stack, but the AST pushed by `Any` has become a number. -/
theorem C45_match_false : ∃ g : Gram, stackTypes (observe ((Heap.newStrCtx (b! "a") >>= fun c => Heap.run plainWorld noEnv 9 g c) noMem)) = [.int] ∧
    stackTypes (run noEnv 9 g (newStrCtx (b! "a"))) = [.string] :=
  ⟨matchInFirst, by cbv, by cbv⟩

/-- A callback that replaces all ASTs of the parser so far and then says that the second round does not match. -/
def replacing : ImplFn := fun k b c =>
  if 0 ≤ k ∧ c.qty = 1 then .ok ({ c with stack := c.stack.take b ++ [{ Ast.zero with ty := .int }], status := .unmatched }, none) else .ok (c, none)

/-- The result of the first round is kept, but its AST is the one of the second. -/
theorem C45_callback_false : ∃ g : Gram, stackTypes (observe ((Heap.newStrCtx (b! "ab") >>= fun c => Heap.run plainWorld noEnv 9 g c) noMem)) = [.int] ∧
    stackTypes (run noEnv 9 g (newStrCtx (b! "ab"))) = [.string] :=
  ⟨.base "R" (some replacing) [.times ⟨0, 2⟩] [.prim anyS] none, by cbv, by cbv⟩

/-! ### Examples -/

/-- `First(FlatGroup(Any(), Any(), Unmatched()), Any())`: the first alternative writes two cells before it fails. -/
example : stackTypes (observe ((Heap.newStrCtx (b! "ab") >>= fun c => Heap.run plainWorld noEnv 9
    (.first [.flatGroup [.prim anyS, .prim anyS, .prim unmatchedP], .prim anyS]) c) noMem)) = [.string] := by cbv

/-- A context that can be used, and a saved one below it. -/
example : Usable { next := 1, cell := fun _ _ => default }
      { str := [], slice := none, pos := 0, len := 0, qty := 0, stack := ⟨0, 0, 2, 4⟩, status := .matched, cls := "", tag := .nil } ∧
    Below ⟨0, 0, 2, 4⟩ { str := [], slice := none, pos := 0, len := 0, qty := 0, stack := ⟨0, 0, 1, 4⟩, status := .matched, cls := "", tag := .nil } :=
  ⟨⟨by decide, by decide, fun _ h => nomatch h⟩, fun _ => by decide, fun _ h => nomatch h⟩

/-- Three elements in an array of four cells. -/
example : (3 : Nat) ≤ (⟨0, 0, 3, 4⟩ : Slice).cap ∧ (⟨0, 0, 3, 4⟩ : Slice).len + [Ast.zero].length ≤ 4 := by decide

/-- A callback of the permitted kind that does replace ASTs. -/
example : KeepsBelow fun _ b c => .ok ({ c with stack := c.stack.take b ++ [Ast.zero], status := .matched }, none) := by
  intro k b c o e h _
  injection h with h
  injection h with h1 h2
  subst h1 h2
  exact ⟨rfl, List.prefix_append _ _, fun _ _ h => nomatch h⟩

#print axioms C45_simulates
#print axioms C45_saved
#print axioms C45_rewind
#print axioms C45_text
#print axioms C45_growth
#print axioms C45_from
#print axioms C45_library
#print axioms C45_csv
#print axioms C45_formula
#print axioms C45_match_false
#print axioms C45_callback_false

end Takenoco
