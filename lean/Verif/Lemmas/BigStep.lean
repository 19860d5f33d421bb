import Verif.Lemmas.Den
import Verif.Lemmas.Combinators
import Verif.Spec.BigStep
/-
The big-step specification agrees with the engine.
-/
namespace Takenoco
open Spec

/-! ### The combinators over arbitrary children, as outcomes -/

theorem once_of {ctx : Ctx} {r : Outcome} (hm : ∀ c', r = .matched c' → c'.status = .matched)
    (hf : ∀ c' e, r = .failed c' e → c'.status = .error) :
    Outcome.of (onceResult false false none ctx r) = r.onMatch fun c' => .matched { c' with qty := 1 } := by
  cases r with
  | matched c' => simp [onceResult, applyTransforms, Outcome.of, Outcome.onMatch, hm c' rfl]
  | unmatched => rfl
  | failed c' e =>
    have := hf c' e rfl
    cases e with
    | none => simp [onceResult, Outcome.of, this, Outcome.onMatch]
    | some e => exact Outcome.of_failed this
  | panicked p => rfl
  | timedOut => rfl

theorem flatGroup_of {ps : List Sem} {c : Ctx} {r : Outcome} (h : Seq ps (enter ":base:FlatGroup" c) r) :
    Outcome.of (flatGroup ps c) = r.onMatch fun c' => .matched { c' with qty := 1 } := by
  rw [flatGroup_eq h]
  exact once_of (fun _ hr => by subst hr; exact h.matched_status rfl)
    (fun _ _ hr => by subst hr; exact h.failed_status)

theorem first_of {ps : List Sem} {c : Ctx} {r : Outcome} (hps : ps ≠ [])
    (h : Choice ps (enter ":base:First" c) r) :
    Outcome.of (first ps c) = r.onMatch fun c' => .matched { c' with qty := 1 } := by
  rw [first_eq h hps]
  exact once_of (fun _ hr => by subst hr; exact h.matched_status)
    (fun _ _ hr => by subst hr; exact h.failed_status)

theorem firstNil_of (c : Ctx) : Outcome.of (first [] c) = .matched { enter ":base:First" c with qty := 1 } := rfl

theorem group_of {ps : List Sem} {c : Ctx} {r : Outcome} (h : Seq ps (enter ":base:Group" c) r) :
    Outcome.of (group ps c) = r.onMatch fun c' =>
        if c'.stack.length < c.stack.length then .panicked .index
        else .matched { c' with
          qty := 1
          stack := c'.stack.take c.stack.length ++
            [{ Ast.zero with cls := ":base:Group", ty := .listOfAst,
                             val := .list (c'.stack.drop c.stack.length) }] } := by
  rw [group_eq h]
  cases r with
  | matched c' =>
    have := h.matched_status rfl
    by_cases hl : c'.stack.length < c.stack.length
    · simp [onceResult, applyTransforms, Outcome.of, Outcome.onMatch, hl]
    · simp [onceResult, applyTransforms, Outcome.of, Outcome.onMatch, hl, applyTrs, groupingTransform, this]
  | unmatched => rfl
  | failed c' e =>
    have := h.failed_status
    cases e with
    | none => simp [onceResult, Outcome.of, this, Outcome.onMatch]
    | some e => exact Outcome.of_failed this
  | panicked p => rfl
  | timedOut => rfl

theorem lookAhead_of {ps : List Sem} {c : Ctx} {r : Outcome} (hc : c.status = .matched)
    (h : Seq ps (enter ":base:LookAhead" c) r) :
    Outcome.of (lookAhead ps c) = r.onMatch fun _ => .matched { c with cls := ":base:LookAhead" } := by
  rw [lookAhead_eq h]
  cases r with
  | matched c' => simp [onceResult, applyTransforms, Outcome.of, Outcome.onMatch, hc]
  | unmatched => rfl
  | failed c' e =>
    have := h.failed_status
    cases e with
    | none => simp [onceResult, Outcome.of, this, Outcome.onMatch]
    | some e => exact Outcome.of_failed this
  | panicked p => rfl
  | timedOut => rfl

/-- The outcome of `LookAheadN`. -/
def notOutcome (c : Ctx) : Outcome → Outcome
  | .matched _ => .unmatched
  | .unmatched => .matched { c with cls := ":base:LookAheadN" }
  | r => r

theorem lookAheadN_of {ps : List Sem} {c : Ctx} {r : Outcome} (hc : c.status = .matched)
    (h : Seq ps (enter ":base:LookAheadN" c) r) : Outcome.of (lookAheadN ps c) = notOutcome c r := by
  rw [lookAheadN_eq h]
  cases r with
  | matched c' => rfl
  | unmatched => simp [onceResult, applyTransforms, Outcome.of, notOutcome, hc]
  | failed c' e =>
    have := h.failed_status
    cases e with
    | none => simp [onceResult, Outcome.of, this, notOutcome]
    | some e => exact Outcome.of_failed this
  | panicked p => rfl
  | timedOut => rfl

theorem notFound_iff {r : Outcome} : NotFound r ↔ GoesOn r := by
  cases r with
  | failed c e => cases e <;> simp [NotFound, GoesOn]
  | _ => simp [NotFound, GoesOn]

theorem lookBehind_of {ps : List Sem} {c : Ctx} {r : Outcome} {a b i : Int} (hc : c.status = .matched)
    (h1 : a ≤ i) (h2 : i ≤ b) (h3 : i ≤ c.pos) (neg : Bool)
    (h : Seq ps (back (behindCls neg) c i) r) (hr : ¬ NotFound r)
    (hj : ∀ j, a ≤ j → j < i → j ≤ c.pos → ∃ r, Seq ps (back (behindCls neg) c j) r ∧ NotFound r) :
    Outcome.of (lookBehindBase neg a b ps c) =
      r.onMatch fun _ => if neg then .unmatched else .matched c := by
  rw [lookBehindBase_stop hc h1 h2 h3 h (fun hg => hr (notFound_iff.2 hg))
    (fun j a b d => let ⟨r, x, y⟩ := hj j a b d; ⟨r, x, notFound_iff.1 y⟩)]
  cases r with
  | matched c' => cases neg <;> simp [behindResult, Outcome.of, Outcome.onMatch, hc]
  | unmatched => exact absurd trivial hr
  | failed c' e =>
    have hs := h.failed_status
    cases e with
    | none => exact absurd trivial hr
    | some e => exact Outcome.of_failed hs
  | panicked p => rfl
  | timedOut => rfl

theorem lookBehind_none_of {ps : List Sem} {c : Ctx} {a b : Int} (hc : c.status = .matched) (neg : Bool)
    (hj : ∀ j, a ≤ j → j ≤ b → j ≤ c.pos → ∃ r, Seq ps (back (behindCls neg) c j) r ∧ NotFound r) :
    Outcome.of (lookBehindBase neg a b ps c) = if neg then .matched c else .unmatched := by
  rw [lookBehindBase_none (fun j a b d => let ⟨r, x, y⟩ := hj j a b d; ⟨r, x, notFound_iff.1 y⟩)]
  cases neg
  · rfl
  · simp [Outcome.of]
    cases c; simp_all

/-! ### Transformers -/

theorem applyTrs_panic {ctx : Ctx} {fs : List TSem} {asts : List Ast} {p : Panic} :
    applyTrs ctx fs asts = .panic p ↔
      ∃ pre f post l, fs = pre ++ f :: post ∧ Pipe ctx pre asts (.ok l) ∧ f ctx l = .panic p := by
  constructor
  · intro h
    induction fs generalizing asts with
    | nil => simp [applyTrs] at h
    | cons t ts ih =>
      simp only [applyTrs] at h
      cases ht : t ctx asts with
      | panic x => rw [ht] at h; cases h; exact ⟨[], t, ts, asts, rfl, .done, ht⟩
      | timeout => rw [ht] at h; cases h
      | ok le =>
        obtain ⟨l, e⟩ := le
        rw [ht] at h
        cases e with
        | some e => cases h
        | none =>
          obtain ⟨pre, f, post, l', h1, h2, h3⟩ := ih h
          exact ⟨t :: pre, f, post, l', by rw [h1]; rfl, .step ht h2, h3⟩
  · rintro ⟨pre, f, post, l, rfl, h2, h3⟩
    generalize hr : Except.ok l = r at h2
    induction h2 with
    | done => cases hr; simp only [List.nil_append, applyTrs, h3]
    | step ht _ ih => simp only [List.cons_append, applyTrs, ht]; exact ih hr
    | fail => cases hr

theorem rewrites_of {ctx out : Ctx} {fs : List TSem} {r : Outcome} (ho : out.status = .matched)
    (h : Outcome.of (applyTransforms (some fs) ctx out) = r) (hr : r ≠ .timedOut) :
    Rewrites ctx fs ctx.stack.length out r := by
  simp only [applyTransforms] at h
  by_cases hl : out.stack.length < ctx.stack.length
  · rw [if_pos hl] at h; subst h; exact .short hl
  · rw [if_neg hl] at h
    have hl' : ctx.stack.length ≤ out.stack.length := by omega
    cases ha : applyTrs ctx fs (out.stack.drop ctx.stack.length) with
    | panic p =>
      rw [ha] at h; subst h
      obtain ⟨pre, f, post, l, h1, h2, h3⟩ := applyTrs_panic.1 ha
      exact .panic hl' h1 h2 h3
    | timeout => rw [ha] at h; subst h; exact absurd rfl hr
    | ok le =>
      obtain ⟨l, e⟩ := le
      rw [ha] at h
      have := pipe_of_applyTrs ha
      cases e with
      | none => simp [Outcome.of, ho] at h; subst h; exact .ok hl' this
      | some e => simp [Outcome.of] at h; subst h; exact .err hl' this

theorem rewrites_iff {ctx out : Ctx} {fs : List TSem} {r : Outcome} (ho : out.status = .matched)
    (h : Rewrites ctx fs ctx.stack.length out r) :
    Outcome.of (applyTransforms (some fs) ctx out) = r := by
  simp only [applyTransforms]
  cases h with
  | short hl => rw [if_pos hl]; rfl
  | ok hl hp =>
    rw [if_neg (by omega)]
    have := applyTrs_pipe hp
    simp only at this
    rw [this]; simp [Outcome.of, ho]
  | err hl hp =>
    rw [if_neg (by omega)]
    obtain ⟨l, hl'⟩ := applyTrs_pipe hp
    rw [hl']; simp [Outcome.of]
  | panic hl h1 h2 h3 =>
    rw [if_neg (by omega), applyTrs_panic.2 ⟨_, _, _, _, h1, h2, h3⟩]; rfl

/-- The outcome of `Trans` when the child does not match. -/
theorem trans_stop_of {p : Sem} {fs : List TSem} {c : Ctx} {r : Outcome}
    (h : Outcome.of (p (enter ":base:Trans" c)) = r) (hr : ∀ c', r ≠ .matched c') :
    Outcome.of (trans p fs c) = r := by
  have hs := seq_single h
  rw [trans_eq hs]
  cases r with
  | matched c' => exact absurd rfl (hr c')
  | unmatched => rfl
  | failed c' e =>
    have := hs.failed_status
    cases e with
    | none => simp [onceResult, Outcome.of, this]
    | some e => exact Outcome.of_failed this
  | panicked p => rfl
  | timedOut => rfl

theorem trans_matched_eq {p : Sem} {fs : List TSem} {c c' : Ctx}
    (h : Outcome.of (p (enter ":base:Trans" c)) = .matched c') :
    trans p fs c = applyTransforms (variadic fs) { c with cls := ":base:Trans" } { c' with qty := 1 } := by
  rw [trans_eq (seq_single h)]
  simp [onceResult]

/-- The wrapper of `LightBaseParser` on outcomes. -/
def lightOutcome (cls : String) : Outcome → Outcome
  | .matched c' => .matched { c' with qty := 1, cls := cls }
  | .failed c' e => .failed { c' with cls := cls } e
  | r => r

theorem light_of (cls : String) (p : Sem) (c : Ctx) :
    Outcome.of (lightParser cls p c) = lightOutcome cls (Outcome.of (p c)) := by
  unfold lightParser
  cases h : p c with
  | panic x => rfl
  | timeout => rfl
  | ok oe =>
    obtain ⟨o, e⟩ := oe
    cases e with
    | none => cases hs : o.status <;> simp [Outcome.of, fixStatus, hs, lightOutcome]
    | some e =>
      by_cases hs : o.status = .error
      · simp [Outcome.of, fixStatus, hs, lightOutcome]
      · simp [Outcome.of, fixStatus, hs, lightOutcome]

/-! ### Match -/

theorem matchFn_none {n : Int} {cases : List ((List Ast → Bool) × List TSem)} {c : Ctx}
    (h : ∀ x ∈ cases, x.1 c.stack = false) :
    matchFn n cases c = .ok ({ c with len := 0, status := .unmatched }, none) := by
  induction cases with
  | nil => rfl
  | cons x xs ih =>
    obtain ⟨g, ts⟩ := x
    have h1 : g c.stack = false := h (g, ts) (by simp)
    simp only [matchFn, h1]
    exact ih fun y hy => h y (by simp [hy])

theorem matchFn_skip {n : Int} {pre post : List ((List Ast → Bool) × List TSem)} {c : Ctx}
    (h : ∀ x ∈ pre, x.1 c.stack = false) : matchFn n (pre ++ post) c = matchFn n post c := by
  induction pre with
  | nil => rfl
  | cons x xs ih =>
    obtain ⟨g, ts⟩ := x
    have h1 : g c.stack = false := h (g, ts) (by simp)
    simp only [List.cons_append, matchFn, h1]
    exact ih fun y hy => h y (by simp [hy])

theorem matchFn_cases {cases : List ((List Ast → Bool) × List TSem)} (c : Ctx) :
    (∀ x ∈ cases, x.1 c.stack = false) ∨
    ∃ pre guard fs post, cases = pre ++ (guard, fs) :: post ∧ (∀ x ∈ pre, x.1 c.stack = false) ∧
      guard c.stack = true := by
  induction cases with
  | nil => left; simp
  | cons x xs ih =>
    obtain ⟨g, ts⟩ := x
    cases hg : g c.stack with
    | true => right; exact ⟨[], g, ts, xs, rfl, by simp, hg⟩
    | false =>
      rcases ih with h | ⟨pre, g', fs, post, h1, h2, h3⟩
      · left; simpa [hg] using h
      · right; exact ⟨(g, ts) :: pre, g', fs, post, by rw [h1]; rfl, by simpa [hg] using h2, h3⟩

/-- The chosen case of `Match`, through the same function as `Trans`. -/
theorem matchFn_take {n : Nat} {guard : List Ast → Bool} {fs : List TSem}
    {post : List ((List Ast → Bool) × List TSem)} {c : Ctx} (hg : guard c.stack = true)
    (hn : n ≤ c.stack.length) :
    matchFn n ((guard, fs) :: post) c =
      match applyTrs { c with len := 0, status := .unmatched } fs (c.stack.drop (c.stack.length - n)) with
      | .panic p => .panic p
      | .timeout => .timeout
      | .ok (_, some e) => .ok ({ c with len := 0, status := .error }, some e)
      | .ok (asts, none) =>
        .ok ({ c with len := 0, stack := c.stack.take (c.stack.length - n) ++ asts, status := .matched }, none) := by
  have h1 : ¬ ((c.stack.length : Int) - n < 0 ∨ (c.stack.length : Int) < (c.stack.length : Int) - n) := by omega
  have h2 : ((c.stack.length : Int) - n).toNat = c.stack.length - n := by omega
  simp only [matchFn, hg, if_true, h1, if_false, h2]
  rfl

theorem matchFn_rewrites {n : Nat} {guard : List Ast → Bool} {fs : List TSem}
    {post : List ((List Ast → Bool) × List TSem)} {c : Ctx} {r : Outcome} (hg : guard c.stack = true)
    (hn : n ≤ c.stack.length) (hr : r ≠ .timedOut) :
    Outcome.of (matchFn n ((guard, fs) :: post) c) = r ↔
    Rewrites { c with len := 0, status := .unmatched } fs (c.stack.length - n) { c with len := 0 } r := by
  rw [matchFn_take hg hn]
  constructor
  · intro h
    cases ha : applyTrs { c with len := 0, status := .unmatched } fs (c.stack.drop (c.stack.length - n)) with
    | panic p =>
      rw [ha] at h; subst h
      obtain ⟨pre, f, post, l, h1, h2, h3⟩ := applyTrs_panic.1 ha
      exact .panic (by simp) h1 h2 h3
    | timeout => rw [ha] at h; subst h; exact absurd rfl hr
    | ok le =>
      obtain ⟨l, e⟩ := le
      rw [ha] at h
      have := pipe_of_applyTrs ha
      cases e with
      | none => simp [Outcome.of] at h; subst h; exact .ok (by simp) this
      | some e => simp [Outcome.of] at h; subst h; exact .err (by simp) this
  · intro h
    cases h with
    | short hl => simp at hl; omega
    | ok hl hp =>
      have := applyTrs_pipe hp
      simp only at this
      rw [this]; simp [Outcome.of]
    | err hl hp =>
      obtain ⟨l, hl'⟩ := applyTrs_pipe hp
      simp only at hl'
      rw [hl']; simp [Outcome.of]
    | panic hl h1 h2 h3 =>
      have := applyTrs_panic.2 ⟨_, _, _, _, h1, h2, h3⟩
      simp only at this
      rw [this]; rfl

theorem matchFn_range {n : Int} {guard : List Ast → Bool} {fs : List TSem}
    {post : List ((List Ast → Bool) × List TSem)} {c : Ctx} (hg : guard c.stack = true)
    (hn : ¬ (0 ≤ n ∧ n ≤ c.stack.length)) : matchFn n ((guard, fs) :: post) c = .panic .index := by
  have h1 : ((c.stack.length : Int) - n < 0 ∨ (c.stack.length : Int) < (c.stack.length : Int) - n) := by omega
  simp only [matchFn, hg, if_true, h1]

/-! ### From the specification to the engine -/

/-- How a repetition that has matched `k` times ends, in terms of the specification over parsers. -/
def RepsHold (t : Times) (ps : List Sem) (k : Nat) (c : Ctx) (r : Outcome) : Prop :=
  ∃ n c', Reps ps k c n c' ∧
    ((t.max = ((k + n : Nat) : Int) ∧ r = repEnd t (k + n) c') ∨
     (((k : Int) ≤ t.max → ((k + n : Nat) : Int) < t.max) ∧ ∃ r', Seq ps c' r' ∧ (∀ c'', r' ≠ .matched c'') ∧
        ((r' = .unmatched ∧ r = repEnd t (k + n) c') ∨ (r' ≠ .unmatched ∧ r = r'))))

/-- What a judgement says about the meaning of grammars. -/
def Holds (env : Env) : Judg → Ctx → Outcome → Prop
  | .gram g, c, r => Outcome.of (den env g c) = r
  | .seq gs, c, r => Seq (gs.map (den env)) c r
  | .choice gs, c, r => Choice (gs.map (den env)) c r
  | .reps t gs k, c, r => RepsHold t (gs.map (den env)) k c r

theorem rep_of {t : Times} {n : Nat} {c' : Ctx} (hs : c'.status = .matched) :
    Outcome.of (repResult t n c' none) = repEnd t n c' := by
  by_cases h : t.min ≤ n
  · simp [repResult, repEnd, h, Outcome.of, hs]
  · simp [repResult, repEnd, h, Outcome.of]

theorem rep_stop_of {t : Times} {n : Nat} {c' : Ctx} {r : Outcome}
    (hu : r ≠ .unmatched) (hm : ∀ c, r ≠ .matched c) (hf : ∀ c e, r = .failed c e → c.status = .error) :
    Outcome.of (repResult t n c' (some r)) = r := by
  cases r with
  | matched c => exact absurd rfl (hm c)
  | unmatched => exact absurd rfl hu
  | failed c e =>
    have := hf c e rfl
    cases e with
    | none => simp [repResult, Outcome.of, this]
    | some e => exact Outcome.of_failed this
  | panicked p => rfl
  | timedOut => rfl

theorem repeat_of {t : Times} {ps : List Sem} {c : Ctx} {r : Outcome}
    (h : RepsHold t ps 0 (enter ":base:Repeat" c) r) : ∃ fuel, Outcome.of (repeatP fuel t ps c) = r := by
  obtain ⟨n, c', hR, h⟩ := h
  have hs := hR.status rfl
  simp only [Nat.zero_add] at h
  rcases h with ⟨hm, rfl⟩ | ⟨hn, r', hr', hne, h⟩
  · exact ⟨0, by rw [repeatP_max hR hm, rep_of hs]⟩
  · have hlim : n < iterLimit (n + 1) t := by
      unfold iterLimit
      by_cases h0 : t.max < 0
      · simp [h0]
      · simp only [h0, if_false]; have := hn (by omega); omega
    refine ⟨n + 1, ?_⟩
    rw [repeatP_stop hR hlim hr' hne]
    rcases h with ⟨rfl, rfl⟩ | ⟨hu, rfl⟩
    · exact rep_of hs
    · exact rep_stop_of hu hne (fun c e hc => by subst hc; exact hr'.failed_status)

theorem den_repeat_outcome {env : Env} {t : Times} {gs : List Gram} {c : Ctx} {r : Outcome}
    (h : RepsHold t (gs.map (den env)) 0 (enter ":base:Repeat" c) r) (hr : r ≠ .timedOut) :
    Outcome.of (den env (.repeat t gs) c) = r := by
  obtain ⟨fuel, hf⟩ := repeat_of h
  rw [den_repeat_of env t gs c fuel (fun h0 => by rw [h0] at hf; exact hr hf.symm)]
  exact hf

theorem denTr_fns (env : Env) (fs : List TSem) : (fs.map Tr.fn).map (denTr env) = fs := by
  induction fs with
  | nil => rfl
  | cons f fs ih => simp only [List.map_cons, ih, denTr_fn]

theorem onMatch_ne {r : Outcome} {f : Ctx → Outcome} (h : r ≠ .timedOut) (hf : ∀ c, f c ≠ .timedOut) :
    r.onMatch f ≠ .timedOut := by
  cases r <;> simp_all [Outcome.onMatch]

theorem rewrites_ne {ctx c : Ctx} {fs : List TSem} {n : Nat} {r : Outcome} (h : Rewrites ctx fs n c r) :
    r ≠ .timedOut := by
  cases h <;> simp

theorem lightOutcome_ne {cls : String} {r : Outcome} (h : r ≠ .timedOut) : lightOutcome cls r ≠ .timedOut := by
  cases r <;> simp_all [lightOutcome]

theorem parses_sound {env : Env} {j : Judg} {c : Ctx} {r : Outcome} (h : Parses env j c r)
    (hc : c.status = .matched) : Holds env j c r ∧ r ≠ .timedOut := by
  induction h with
  | seqNil => exact ⟨.done, by simp⟩
  | seqCons _ _ ih1 ih2 =>
    have h1 := (ih1 hc).1
    have h2 := ih2 (Outcome.of_matched_status h1)
    exact ⟨.step h1 h2.1, h2.2⟩
  | seqStop _ hne ih => exact ⟨.stop (ih hc).1 hne, (ih hc).2⟩
  | choiceNil => exact ⟨.exhausted, by simp⟩
  | choiceNext _ _ ih1 ih2 => exact ⟨.skip (ih1 hc).1 (ih2 hc).1, (ih2 hc).2⟩
  | choiceTake _ hne ih => exact ⟨.take (ih hc).1 hne, (ih hc).2⟩
  | @repsMax t gs k c hm =>
    refine ⟨⟨0, c, .zero, .inl ⟨hm, rfl⟩⟩, ?_⟩
    unfold repEnd; split <;> simp
  | @repsEnd t gs k c hm _ ih =>
    refine ⟨⟨0, c, .zero, .inr ⟨fun h => by simp; omega, _, (ih hc).1, by simp, .inl ⟨rfl, rfl⟩⟩⟩, ?_⟩
    unfold repEnd; split <;> simp
  | @repsFail t gs k c r hm _ hu hne ih =>
    exact ⟨⟨0, c, .zero, .inr ⟨fun h => by simp; omega, _, (ih hc).1, hne, .inr ⟨hu, rfl⟩⟩⟩, (ih hc).2⟩
  | @repsNext t gs k c c' r hm _ _ ih1 ih2 =>
    have h1 : Seq (gs.map (den env)) c (.matched c') := (ih1 hc).1
    obtain ⟨⟨n, c'', hR, h⟩, hne⟩ := ih2 (h1.matched_status hc)
    refine ⟨⟨n + 1, c'', .succ h1 hR, ?_⟩, hne⟩
    rw [show k + 1 + n = k + (n + 1) by omega] at h
    rcases h with h | ⟨h, h'⟩
    · exact .inl h
    · exact .inr ⟨fun hk => h (by omega), h'⟩
  | prim h hne => exact ⟨by simp only [Holds, den_prim]; exact h, hne⟩
  | flatGroup _ ih =>
    have ih := ih rfl
    exact ⟨by simp only [Holds, den_flatGroup]; exact flatGroup_of ih.1, onMatch_ne ih.2 (by simp)⟩
  | group _ ih =>
    have ih := ih rfl
    exact ⟨by simp only [Holds, den_group]; exact group_of ih.1,
      onMatch_ne ih.2 (fun c => by split <;> simp)⟩
  | first hne _ ih =>
    have ih := ih rfl
    exact ⟨by simp only [Holds, den_first]; exact first_of (by simpa using hne) ih.1, onMatch_ne ih.2 (by simp)⟩
  | firstNil => exact ⟨by simp only [Holds, den_first]; exact firstNil_of _, by simp⟩
  | lookAhead _ ih =>
    have ih := ih rfl
    exact ⟨by simp only [Holds, den_lookAhead]; exact lookAhead_of hc ih.1, onMatch_ne ih.2 (by simp)⟩
  | lookAheadN_no _ ih =>
    have ih := ih rfl
    exact ⟨by simp only [Holds, den_lookAheadN]; exact lookAheadN_of hc ih.1, by simp⟩
  | lookAheadN_yes _ ih =>
    have ih := ih rfl
    exact ⟨by simp only [Holds, den_lookAheadN]; exact lookAheadN_of hc ih.1, by simp⟩
  | @lookAheadN_stop gs c r _ hu hne ih =>
    have ih := ih rfl
    refine ⟨?_, ih.2⟩
    simp only [Holds, den_lookAheadN]
    rw [lookAheadN_of hc ih.1]
    cases r with
    | matched c => exact absurd rfl (hne c)
    | unmatched => exact absurd rfl hu
    | failed => rfl
    | panicked => rfl
    | timedOut => rfl
  | lookBehind h1 h2 h3 _ hnf _ hr ihj ih =>
    have ih := ih rfl
    refine ⟨?_, onMatch_ne ih.2 (by simp)⟩
    simp only [Holds, den_lookBehind]
    exact lookBehind_of hc h1 h2 h3 false ih.1 hr
      (fun j a b d => ⟨_, (ihj j a b d rfl).1, hnf j a b d⟩)
  | lookBehind_none _ hnf ihj =>
    refine ⟨?_, by simp⟩
    simp only [Holds, den_lookBehind]
    exact lookBehind_none_of hc false (fun j a b d => ⟨_, (ihj j a b d rfl).1, hnf j a b d⟩)
  | lookBehindN h1 h2 h3 _ hnf _ hr ihj ih =>
    have ih := ih rfl
    refine ⟨?_, onMatch_ne ih.2 (by simp)⟩
    simp only [Holds, den_lookBehindN]
    exact lookBehind_of hc h1 h2 h3 true ih.1 hr
      (fun j a b d => ⟨_, (ihj j a b d rfl).1, hnf j a b d⟩)
  | lookBehindN_none _ hnf ihj =>
    refine ⟨?_, by simp⟩
    simp only [Holds, den_lookBehindN]
    exact lookBehind_none_of hc true (fun j a b d => ⟨_, (ihj j a b d rfl).1, hnf j a b d⟩)
  | «repeat» _ ih =>
    have ih := ih rfl
    exact ⟨den_repeat_outcome ih.1 ih.2, ih.2⟩
  | trans_stop _ hne ih =>
    have ih := ih rfl
    exact ⟨by simp only [Holds, den_trans]; exact trans_stop_of ih.1 hne, ih.2⟩
  | trans_none _ ih =>
    have ih := ih rfl
    refine ⟨?_, by simp⟩
    simp only [Holds, den_trans]
    rw [trans_matched_eq ih.1]
    have := Outcome.of_matched_status ih.1
    simp [variadic, applyTransforms, Outcome.of, this]
  | @trans g fs c c' r _ hfs hrw ih =>
    have ih := ih rfl
    refine ⟨?_, rewrites_ne hrw⟩
    simp only [Holds, den_trans]
    rw [trans_matched_eq ih.1, denTr_fns]
    have h1 := Outcome.of_matched_status ih.1
    have h2 : variadic fs = some fs := by cases fs <;> simp_all [variadic]
    rw [h2]
    exact rewrites_iff (ctx := { c with cls := ":base:Trans" }) (out := { c' with qty := 1 }) h1 hrw
  | @indirect i c r _ ih =>
    have ih := ih hc
    have h1 : Outcome.of (den env (env i) c) = r := ih.1
    refine ⟨?_, lightOutcome_ne ih.2 (cls := ":base:Indirect")⟩
    simp only [Holds, den_indirect]
    exact (light_of _ _ c).trans (by rw [h1]; rfl)
  | @match_none n cases c h =>
    refine ⟨?_, by simp⟩
    simp only [Holds, den_match]
    refine (light_of _ _ _).trans ?_
    rw [matchFn_none (by
      intro x hx
      obtain ⟨y, hy, rfl⟩ := List.mem_map.1 hx
      exact h y hy)]
    rfl
  | @match_range n pre post guard ts c h hg hn =>
    refine ⟨?_, by simp⟩
    simp only [Holds, den_match, List.map_append, List.map_cons]
    refine (light_of _ _ _).trans ?_
    rw [matchFn_skip (by
      intro x hx
      obtain ⟨y, hy, rfl⟩ := List.mem_map.1 hx
      exact h y hy), matchFn_range hg hn]
    rfl
  | @«match» n pre post guard fs c r h hg hn hrw =>
    refine ⟨?_, lightOutcome_ne (rewrites_ne hrw) (cls := "Match")⟩
    simp only [Holds, den_match, List.map_append, List.map_cons]
    refine (light_of _ _ _).trans ?_
    rw [matchFn_skip (by
      intro x hx
      obtain ⟨y, hy, rfl⟩ := List.mem_map.1 hx
      exact h y hy), denTr_fns, (matchFn_rewrites hg hn (rewrites_ne hrw)).2 hrw]
    rfl

/-! ### From the engine to the specification -/

/-- Every grammar whose run of depth `n` ends obeys the specification. -/
def Complete (env : Env) (n : Nat) (g : Gram) : Prop :=
  ∀ c r, c.status = .matched → Outcome.of (run env n g c) = r → r ≠ .timedOut → Parses env (.gram g) c r

theorem seq_complete {env : Env} {n : Nat} {gs : List Gram} (ih : ∀ g ∈ gs, Complete env n g) {c : Ctx}
    {r : Outcome} (hc : c.status = .matched) (h : Seq (gs.map (run env n)) c r) (hr : r ≠ .timedOut) :
    Parses env (.seq gs) c r := by
  induction gs generalizing c with
  | nil => cases h; exact .seqNil
  | cons g gs ih' =>
    cases h with
    | step h1 h2 =>
      exact .seqCons (ih g (by simp) c _ hc h1 (by simp))
        (ih' (fun g hg => ih g (by simp [hg])) (Outcome.of_matched_status h1) h2)
    | stop h1 h2 => exact .seqStop (ih g (by simp) c _ hc h1 hr) h2

theorem choice_complete {env : Env} {n : Nat} {gs : List Gram} (ih : ∀ g ∈ gs, Complete env n g) {c : Ctx}
    {r : Outcome} (hc : c.status = .matched) (h : Choice (gs.map (run env n)) c r) (hr : r ≠ .timedOut) :
    Parses env (.choice gs) c r := by
  induction gs with
  | nil => cases h; exact .choiceNil
  | cons g gs ih' =>
    cases h with
    | skip h1 h2 =>
      exact .choiceNext (ih g (by simp) c _ hc h1 (by simp)) (ih' (fun g hg => ih g (by simp [hg])) h2)
    | take h1 h2 => exact .choiceTake (ih g (by simp) c _ hc h1 hr) h2

theorem reps_complete {env : Env} {n : Nat} {gs : List Gram} (ih : ∀ g ∈ gs, Complete env n g) {t : Times}
    {k m : Nat} {c c' : Ctx} {r : Outcome} (hc : c.status = .matched)
    (h : Reps (gs.map (run env n)) k c m c') (hm : (k : Int) + m ≤ t.max ∨ t.max < 0)
    (hend : c'.status = .matched → Parses env (.reps t gs (k + m)) c' r) : Parses env (.reps t gs k) c r := by
  induction h with
  | zero => exact hend hc
  | @succ k m c c1 c' hs _ ih' =>
    have h1 := seq_complete ih hc hs (by simp)
    refine .repsNext (by omega) h1 (ih' (hs.matched_status hc) (by omega) fun h => ?_)
    rw [show k + 1 + m = k + (m + 1) by omega]
    exact hend h

theorem lookBehind_complete {env : Env} {n : Nat} {gs : List Gram} (ih : ∀ g ∈ gs, Complete env n g)
    {c : Ctx} {a b : Int} {neg : Bool} {r : Outcome} (hc : c.status = .matched)
    (h : Outcome.of (lookBehindBase neg a b (gs.map (run env n)) c) = r) (hr : r ≠ .timedOut) :
    Parses env (.gram (if neg then .lookBehindN a b gs else .lookBehind a b gs)) c r := by
  have goes : ∀ (i : Int), (∀ j, a ≤ j → j < i → j ≤ c.pos → ∃ r, BehindAt (behindCls neg) (gs.map (run env n)) c j r ∧ GoesOn r) →
      ∃ R : Int → Outcome, (∀ j, a ≤ j → j < i → j ≤ c.pos → Seq (gs.map (run env n)) (back (behindCls neg) c j) (R j)) ∧
        ∀ j, a ≤ j → j < i → j ≤ c.pos → NotFound (R j) := by
    intro i hj
    refine ⟨fun j => (Seq.total (gs.map (run env n)) (back (behindCls neg) c j)).choose, fun j _ _ _ =>
      (Seq.total (gs.map (run env n)) (back (behindCls neg) c j)).choose_spec, fun j h1 h2 h3 => ?_⟩
    obtain ⟨r, hb, hg⟩ := hj j h1 h2 h3
    have := (Seq.total (gs.map (run env n)) (back (behindCls neg) c j)).choose_spec.det hb
    simp only [this]
    exact notFound_iff.2 hg
  have nt : ∀ {r}, NotFound r → r ≠ .timedOut := fun h h' => by subst h'; exact h
  rcases lookBehind_cases (behindCls neg) (gs.map (run env n)) c a (b - a + 1).toNat with hall | ⟨i, x, h1, h2, h3, hb, hg, hj⟩
  · obtain ⟨R, hR, hN⟩ := goes (b + 1) (fun j h1 h2 h3 => hall j h1 (by omega) h3)
    have hn := lookBehind_none_of (a := a) (b := b) hc neg (ps := gs.map (run env n))
      (fun j h1 h2 h3 => ⟨R j, hR j h1 (by omega) h3, hN j h1 (by omega) h3⟩)
    rw [h] at hn
    subst hn
    have hP : ∀ j, a ≤ j → j ≤ b → j ≤ c.pos → Parses env (.seq gs) (back (behindCls neg) c j) (R j) :=
      fun j h1 h2 h3 => seq_complete ih rfl (hR j h1 (by omega) h3) (nt (hN j h1 (by omega) h3))
    have hN' := fun j h1 (h2 : j ≤ b) h3 => hN j h1 (by omega) h3
    cases neg
    · exact .lookBehind_none hP hN'
    · exact .lookBehindN_none hP hN'
  · obtain ⟨R, hR, hN⟩ := goes i hj
    have hg' : ¬ NotFound x := fun h => hg (notFound_iff.1 h)
    have hn := lookBehind_of (b := b) hc h1 (by omega) h3 neg hb hg'
      (fun j h1 h2 h3 => ⟨R j, hR j h1 h2 h3, hN j h1 h2 h3⟩)
    rw [h] at hn
    subst hn
    have hx : x ≠ .timedOut := fun h => by subst h; exact hr rfl
    have hP := fun j h1 h2 h3 => seq_complete ih rfl (hR j h1 h2 h3) (nt (hN j h1 h2 h3))
    have hS := seq_complete ih rfl hb hx
    cases neg
    · exact .lookBehind h1 (by omega) h3 hP hN hS hg'
    · exact .lookBehindN h1 (by omega) h3 hP hN hS hg'

theorem run_fns (env : Env) (n : Nat) (fs : List TSem) : (fs.map Tr.fn).map (runTr env (n + 1)) = fs := by
  induction fs with
  | nil => rfl
  | cons f fs ih => simp only [List.map_cons, ih]; rfl

theorem trans_zero (p : Sem) (ts : List Tr) (c : Ctx) (env : Env) (hp : ∀ c, p c = .timeout) :
    Outcome.of (trans p (ts.map (runTr env 0)) c) = .timedOut :=
  trans_stop_of (by rw [hp]; rfl) (by simp)

theorem match_zero {env : Env} {n : Int} {cases : List ((List Ast → Bool) × List TSem)} {c : Ctx} {r : Outcome}
    (h : Outcome.of (matchFn n ((cases.map fun x => (x.1, x.2.map Tr.fn)).map fun x => (x.1, x.2.map (runTr env 0))) c) = r)
    (hr : r ≠ .timedOut) : Outcome.of (matchFn n cases c) = r := by
  induction cases with
  | nil => exact h
  | cons x xs ih =>
    obtain ⟨g, fs⟩ := x
    simp only [List.map_cons, matchFn] at h ⊢
    by_cases hg : g c.stack = true
    · rw [if_pos hg] at h ⊢
      split at h
      · rename_i hsp; rw [if_pos hsp]; exact h
      · rename_i hsp
        rw [if_neg hsp]
        cases fs with
        | nil => exact h
        | cons f fs => simp only [List.map_cons, applyTrs, runTr] at h; exact absurd h.symm hr
    · rw [if_neg hg] at h ⊢
      exact ih h

theorem parses_complete {env : Env} (henv : ∀ i, Plain (env i)) (n : Nat) :
    ∀ g, Plain g → Complete env n g := by
  induction n with
  | zero => intro g _ c r _ h hr; exact absurd h.symm hr
  | succ n ih =>
    intro g hg c r hc h hr
    cases hg with
    | prim => exact .prim h hr
    | @flatGroup gs hgs =>
      obtain ⟨x, hx⟩ := Seq.total (gs.map (run env n)) (enter ":base:FlatGroup" c)
      have : Outcome.of (run env (n + 1) (.flatGroup gs) c) = _ := flatGroup_of hx
      rw [h] at this; subst this
      exact .flatGroup (seq_complete (fun g hg => ih g (hgs g hg)) rfl hx (fun h => by subst h; exact hr rfl))
    | @group gs hgs =>
      obtain ⟨x, hx⟩ := Seq.total (gs.map (run env n)) (enter ":base:Group" c)
      have : Outcome.of (run env (n + 1) (.group gs) c) = _ := group_of hx
      rw [h] at this; subst this
      exact .group (seq_complete (fun g hg => ih g (hgs g hg)) rfl hx (fun h => by subst h; exact hr rfl))
    | @first gs hgs =>
      by_cases hne : gs = []
      · subst hne
        have : Outcome.of (run env (n + 1) (.first []) c) = _ := firstNil_of c
        rw [h] at this; subst this; exact .firstNil
      · obtain ⟨x, hx⟩ := Choice.total (gs.map (run env n)) (enter ":base:First" c)
        have : Outcome.of (run env (n + 1) (.first gs) c) = _ := first_of (by simpa using hne) hx
        rw [h] at this; subst this
        exact .first hne (choice_complete (fun g hg => ih g (hgs g hg)) rfl hx (fun h => by subst h; exact hr rfl))
    | @lookAhead gs hgs =>
      obtain ⟨x, hx⟩ := Seq.total (gs.map (run env n)) (enter ":base:LookAhead" c)
      have : Outcome.of (run env (n + 1) (.lookAhead gs) c) = _ := lookAhead_of hc hx
      rw [h] at this; subst this
      exact .lookAhead (seq_complete (fun g hg => ih g (hgs g hg)) rfl hx (fun h => by subst h; exact hr rfl))
    | @lookAheadN gs hgs =>
      obtain ⟨x, hx⟩ := Seq.total (gs.map (run env n)) (enter ":base:LookAheadN" c)
      have : Outcome.of (run env (n + 1) (.lookAheadN gs) c) = _ := lookAheadN_of hc hx
      rw [h] at this; subst this
      have hp : Parses env (.seq gs) (enter ":base:LookAheadN" c) x :=
        seq_complete (fun g hg => ih g (hgs g hg)) rfl hx (fun h => by subst h; exact hr rfl)
      cases x with
      | matched c' => exact .lookAheadN_no hp
      | unmatched => exact .lookAheadN_yes hp
      | failed => exact .lookAheadN_stop hp (by simp [notOutcome]) (by simp [notOutcome])
      | panicked => exact .lookAheadN_stop hp (by simp [notOutcome]) (by simp [notOutcome])
      | timedOut => exact absurd rfl hr
    | lookBehind hgs => exact lookBehind_complete (neg := false) (fun g hg => ih g (hgs g hg)) hc h hr
    | lookBehindN hgs => exact lookBehind_complete (neg := true) (fun g hg => ih g (hgs g hg)) hc h hr
    | @«repeat» t gs hgs =>
      have ih' : ∀ g ∈ gs, Complete env n g := fun g hg => ih g (hgs g hg)
      have h : Outcome.of (repeatP n t (gs.map (run env n)) c) = r := h
      refine .repeat ?_
      rcases reps_cases (gs.map (run env n)) (iterLimit n t) 0 (enter ":base:Repeat" c) with
        ⟨c', hR⟩ | ⟨m, c', x, hm, hR, hs, hne⟩
      · by_cases h0 : t.max < 0
        · simp only [iterLimit, h0, if_true] at hR
          rw [repeatP_fuel hR h0] at h
          exact absurd h.symm hr
        · simp only [iterLimit, h0, if_false] at hR
          rw [repeatP_max hR (by omega), rep_of (hR.status rfl)] at h
          subst h
          refine reps_complete ih' rfl hR (by omega) fun _ => ?_
          simp only [Nat.zero_add]
          exact .repsMax (by omega)
      · have hst := hR.status rfl
        rw [repeatP_stop hR hm hs hne] at h
        have hlt : (m : Int) < t.max ∨ t.max < 0 := by
          unfold iterLimit at hm; split at hm <;> omega
        have hx : x ≠ .timedOut := fun hx => by subst hx; exact hr h.symm
        have hp := seq_complete ih' hst hs hx
        refine reps_complete ih' rfl hR (by omega) fun _ => ?_
        simp only [Nat.zero_add]
        by_cases hu : x = .unmatched
        · subst hu
          have : Outcome.of (repResult t m c' (some .unmatched)) = repEnd t m c' := rep_of hst
          rw [h] at this; subst this
          exact .repsEnd (by omega) hp
        · have := rep_stop_of (t := t) (n := m) (c' := c') hu hne (fun c e hc => by subst hc; exact hs.failed_status)
          rw [h] at this; subst this
          exact .repsFail (by omega) hp hu hne
    | @trans g fs hg =>
      have h : Outcome.of (trans (run env n g) ((fs.map Tr.fn).map (runTr env n)) c) = r := h
      cases n with
      | zero => rw [trans_zero (run env 0 g) _ c env (fun _ => rfl)] at h; exact absurd h.symm hr
      | succ n =>
        rw [run_fns] at h
        cases hx : Outcome.of (run env (n + 1) g (enter ":base:Trans" c)) with
        | matched c' =>
          have hp := ih g hg _ _ rfl hx (by simp)
          have hst := Outcome.of_matched_status hx
          rw [trans_matched_eq hx] at h
          cases fs with
          | nil =>
            simp [variadic, applyTransforms, Outcome.of, hst] at h
            subst h
            have := Parses.trans_none hp
            rw [hst] at this
            exact this
          | cons f fs =>
            exact .trans hp (by simp) (rewrites_of (ctx := { c with cls := ":base:Trans" })
              (out := { c' with qty := 1 }) hst h hr)
        | unmatched =>
          rw [trans_stop_of hx (by simp)] at h; subst h
          exact .trans_stop (ih g hg _ _ rfl hx hr) (by simp)
        | failed =>
          rw [trans_stop_of hx (by simp)] at h; subst h
          exact .trans_stop (ih g hg _ _ rfl hx hr) (by simp)
        | panicked =>
          rw [trans_stop_of hx (by simp)] at h; subst h
          exact .trans_stop (ih g hg _ _ rfl hx hr) (by simp)
        | timedOut => rw [trans_stop_of hx (by simp)] at h; exact absurd h.symm hr
    | @indirect i =>
      have h : Outcome.of (lightParser ":base:Indirect" (run env n (env i)) c) = r := h
      rw [light_of] at h
      have hx : Outcome.of (run env n (env i) c) ≠ .timedOut := fun hx => by rw [hx] at h; exact hr h.symm
      have := Parses.indirect (ih (env i) (henv i) c _ hc rfl hx)
      subst h
      exact this
    | @«match» m cases =>
      replace h : Outcome.of (lightParser "Match" (matchFn m
        ((cases.map fun x => (x.1, x.2.map Tr.fn)).map fun x => (x.1, x.2.map (runTr env n)))) c) = r := h
      rw [light_of] at h
      generalize hx : Outcome.of (matchFn m
        ((cases.map fun x => (x.1, x.2.map Tr.fn)).map fun x => (x.1, x.2.map (runTr env n))) c) = x at h
      have hxt : x ≠ .timedOut := fun hx => by subst hx; exact hr h.symm
      have hx' : Outcome.of (matchFn m cases c) = x := by
        cases n with
        | zero => exact match_zero hx hxt
        | succ n =>
          have : ((cases.map fun x => (x.1, x.2.map Tr.fn)).map fun x => (x.1, x.2.map (runTr env (n + 1)))) = cases := by
            rw [List.map_map]
            conv => rhs; rw [← List.map_id cases]
            refine List.map_congr_left fun x _ => ?_
            simp only [Function.comp, run_fns, id]
          rw [this] at hx; exact hx
      clear hx
      rcases matchFn_cases (cases := cases) c with hn | ⟨pre, guard, fs, post, rfl, h2, h3⟩
      · rw [matchFn_none hn] at hx'
        subst hx'; subst h
        exact .match_none (by
          intro x hx
          obtain ⟨y, hy, rfl⟩ := List.mem_map.1 hx
          exact hn y hy)
      · rw [matchFn_skip h2] at hx'
        have h2' : ∀ x : (List Ast → Bool) × List Tr, x ∈ pre.map (fun x => (x.1, x.2.map Tr.fn)) → x.1 c.stack = false := by
          intro x hx
          obtain ⟨y, hy, rfl⟩ := List.mem_map.1 hx
          exact h2 y hy
        simp only [List.map_append, List.map_cons]
        by_cases hm : 0 ≤ m ∧ m ≤ c.stack.length
        · obtain ⟨k, rfl⟩ : ∃ k : Nat, m = k := ⟨m.toNat, by omega⟩
          subst h
          exact .match h2' h3 (by omega) ((matchFn_rewrites h3 (by omega) hxt).1 hx')
        · rw [matchFn_range h3 hm] at hx'
          subst hx'; subst h
          exact .match_range h2' h3 hm

end Takenoco
