import Verif.Lemmas.ObjLogic
import Verif.Model.Examples.ToRpnHeap
/-
The rules of the torpn example on lists of ASTs, as functions.
-/
namespace Takenoco
open Spec ToRpnHeap

/-- How a rule ends whose parser has matched `args` at index `p`. -/
def afterMatch (l : List Ast) (p n : Nat) : Out (List Ast × Option Err) → Out Search
  | .panic x => .panic x
  | .timeout => .timeout
  | .ok (_, some e) => .ok (.err e)
  | .ok (b, none) => .ok (.rewritten (l.take p ++ b ++ l.drop (p + n)))

section
variable {env : Env} {l : List Ast} {p n : Nat} {a : List Ast} {g : Gram} {f : TSem} {tag : Value}

theorem rule_misses (h : OMisses (den env g) l p) : tryRules (newObjCtx (astSliceSrc l) tag) l p [den env (.trans g [.fn f])] = .ok .noMatch :=
  (tryRules_iff tag l p _ .noMatch).2 (inapplicable_of_misses (otrans_misses h))

theorem rule_panics {x : Panic} (h : OPanics (den env g) l p x) : tryRules (newObjCtx (astSliceSrc l) tag) l p [den env (.trans g [.fn f])] = .panic x := by
  have : OPanics (den env (.trans g [.fn f])) l p x := fun c hc => by
    rw [den_trans]
    exact trans_stop_of (h (enter ":base:Trans" c) ⟨hc.slice, hc.pos, rfl⟩) (fun _ h => by cases h)
  unfold tryRules
  rw [overAsts_eq, panics_of_panics this]

theorem rule_hits (h : OHits (den env g) l p n a) (hn : p + n ≤ l.length) (hf : ∀ c c', f c a = f c' a) (c0 : Ctx) :
    tryRules (newObjCtx (astSliceSrc l) tag) l p [den env (.trans g [.fn f])] = afterMatch l p n (f c0 a) := by
  unfold tryRules
  rw [overAsts_eq]
  obtain ⟨c', h1, h2, h3⟩ := h (enter ":base:Trans" (overAsts tag l p)) ⟨rfl, rfl, rfl⟩
  rw [den_trans, trans_matched_eq h1]
  have h3 : c'.stack = a := h3
  have hz : (overAsts tag l p).stack.length = 0 := rfl
  simp only [List.map_cons, List.map_nil, denTr_fn, variadic, List.isEmpty_cons, Bool.false_eq_true, if_false, applyTransforms]
  rw [if_neg (by rw [hz]; omega)]
  simp only [h3, hz, List.drop_zero, List.take_zero, List.nil_append, applyTrs]
  rw [hf _ c0]
  cases hfc : f c0 a with
  | panic x => rfl
  | timeout => rfl
  | ok r =>
    obtain ⟨b, e⟩ := r
    cases e with
    | some e => rfl
    | none =>
      have hs : c'.status = .matched := h2.ok
      have hp : c'.pos = p + n := h2.pos
      simp only [afterMatch, hs, hp, ne_eq, not_true_eq_false, if_false, tryRules]
      rw [if_neg (by omega)]

theorem isOperator_panics {a : Ast} {cls : String} {ops : List Bytes} {x : Panic} (h : l[p]? = some a)
    (hm : Formula.makeOpMatcher cls ops (.ast a) = .panic x) : OPanics (den env (Formula.isOperator cls ops)) l p x := by
  intro c hc
  unfold Formula.isOperator
  rw [den_trans]
  refine trans_stop_of ?_ (fun _ h => by cases h)
  obtain ⟨str, slice, pos, len, qty, stack, status, cls', tag⟩ := c
  obtain ⟨h1, h2, h3⟩ := hc
  cases h1; cases h2; cases h3
  have hi := items_get l pos
  rw [h] at hi
  rw [den_prim, objClassFn, lightParser]
  simp only [enter, withSlice, hi, Option.map_some, hm]
  rfl

theorem matcher_true {a : Ast} {cls : String} {ops : List Bytes} (h : Formula.makeOpMatcher cls ops (.ast a) = .ok true) :
    a.cls = cls ∧ ∃ v, a.val = .str v ∧ v ∈ ops := by
  simp only [Formula.makeOpMatcher] at h
  split at h
  · cases h
  · rename_i hc
    refine ⟨by simpa using hc, ?_⟩
    cases hv : a.val <;> rw [hv] at h <;> simp only [asStr] at h <;> try cases h
    rename_i v
    refine ⟨v, rfl, ?_⟩
    simpa using h

theorem matcher_false {a : Ast} {cls : String} {ops : List Bytes} (h : Formula.makeOpMatcher cls ops (.ast a) = .ok false) : NotOp cls ops a := by
  simp only [Formula.makeOpMatcher] at h
  split at h
  · rename_i hc; exact .inl hc
  · cases hv : a.val <;> rw [hv] at h <;> simp only [asStr] at h <;> try cases h
    rename_i v
    refine .inr ⟨v, hv, fun hm => ?_⟩
    have h : (ops.any (· == v)) = false := by simpa using h
    simp only [List.any_eq_false, beq_iff_eq] at h
    exact h v hm rfl

theorem matcher_timeout {a : Ast} {cls : String} {ops : List Bytes} : Formula.makeOpMatcher cls ops (.ast a) ≠ .timeout := by
  simp only [Formula.makeOpMatcher]
  split
  · simp
  · cases a.val <;> simp [asStr]

theorem OSeqHits.panics {q : Sem} {qs : List Sem} {x : Panic} (h1 : OHits q l p n a) (h2 : ∀ c, AtO c l (p + n) → Seq qs c (.panicked x)) :
    ∀ c, AtO c l p → Seq (q :: qs) c (.panicked x) := fun c hc =>
  let ⟨c1, e1, r1, _⟩ := h1 c hc
  .step e1 (h2 c1 r1)

theorem oflat_panics {gs : List Gram} {x : Panic} (h : ∀ c, AtO c l p → Seq (gs.map (den env)) c (.panicked x)) : OPanics (den env (.flatGroup gs)) l p x :=
  fun c hc => by rw [den_flatGroup, flatGroup_of (h (enter ":base:FlatGroup" c) ⟨hc.slice, hc.pos, rfl⟩)]; rfl

/-- The unary rule. -/
theorem unaryRule_eq (hf : ∀ a c c', f c a = f c' a) (c0 : Ctx) : tryRules (newObjCtx (astSliceSrc l) tag) l p [den env (unaryRuleOf f)] =
    match unaryMatch id l p with
    | .panic x => .panic x
    | .timeout => .timeout
    | .ok none => .ok .noMatch
    | .ok (some args) => afterMatch l p args.length (f c0 args) := by
  unfold unaryMatch unaryRuleOf
  cases h1 : l[p]? with
  | none => exact rule_misses (oflat_misses (.head (isOperator_misses fun a ha => by rw [h1] at ha; cases ha)))
  | some o =>
    simp only [id]
    cases hm : Formula.makeOpMatcher "UnaryOperator" [b! "-"] (.ast o) with
    | panic x => exact rule_panics (oflat_panics fun c hc => .stop (isOperator_panics h1 hm c hc) (fun _ h => by cases h))
    | timeout => exact absurd hm matcher_timeout
    | ok b =>
      cases b with
      | false => exact rule_misses (oflat_misses (.head (isOperator_misses fun a ha => by rw [h1] at ha; cases ha; exact matcher_false hm)))
      | true =>
        obtain ⟨hc, v, hv, ho⟩ := matcher_true hm
        cases h2 : l[p + 1]? with
        | none => exact rule_misses (oflat_misses (.tail (isOperator_hits h1 hc hv ho) (.head (anyOperand_misses h2))))
        | some a =>
          have hl := (List.getElem?_eq_some_iff.1 h2).1
          refine rule_hits (unaryRule_inner h1 hc ?_ h2) (by omega) (hf _) c0
          rw [hv, List.mem_singleton.1 ho]

/-- A binary rule. -/
theorem binaryRule_eq {ops : List Bytes} (hf : ∀ a c c', f c a = f c' a) (c0 : Ctx) : tryRules (newObjCtx (astSliceSrc l) tag) l p [den env (binaryRuleOf ops f)] =
    match binaryMatch id ops l p with
    | .panic x => .panic x
    | .timeout => .timeout
    | .ok none => .ok .noMatch
    | .ok (some args) => afterMatch l p args.length (f c0 args) := by
  unfold binaryMatch binaryRuleOf
  cases h1 : l[p]? with
  | none => exact rule_misses (oflat_misses (.head (anyOperand_misses h1)))
  | some a =>
    cases h2 : l[p + 1]? with
    | none => exact rule_misses (oflat_misses (.tail (anyOperand_hits h1) (.head (isOperator_misses fun a ha => by rw [h2] at ha; cases ha))))
    | some o =>
      simp only [id]
      cases hm : Formula.makeOpMatcher "BinaryOperator" ops (.ast o) with
      | panic x => exact rule_panics (oflat_panics (OSeqHits.panics (anyOperand_hits h1) fun c hc => .stop (isOperator_panics h2 hm c hc) (fun _ h => by cases h)))
      | timeout => exact absurd hm matcher_timeout
      | ok b =>
        cases b with
        | false =>
          exact rule_misses (oflat_misses (.tail (anyOperand_hits h1) (.head (isOperator_misses fun a ha => by rw [h2] at ha; cases ha; exact matcher_false hm))))
        | true =>
          obtain ⟨hc, v, hv, ho⟩ := matcher_true hm
          cases h3 : l[p + 2]? with
          | none => exact rule_misses (oflat_misses (.tail (anyOperand_hits h1) (.tail (isOperator_hits h2 hc hv ho) (.head (anyOperand_misses h3)))))
          | some b =>
            have hl := (List.getElem?_eq_some_iff.1 h3).1
            exact rule_hits (binaryRule_inner h1 h2 hc hv ho h3) (by omega) (hf _) c0

/-- The check. -/
theorem checkG_holds : checkHolds (den env Formula.checkG) tag l = .ok (decide (l.length = 1)) := by
  by_cases h : l.length = 1
  · rw [(checkHolds_iff _ tag l).1.2 (checkG_accepts h), decide_eq_true h]
  · rw [(checkHolds_iff _ tag l).2.2 (checkG_declines h), decide_eq_false h]

end
end Takenoco
