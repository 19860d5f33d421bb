import Verif.Lemmas.Engine
/-
`baseParser` with the properties used by the library's combinators, in terms of the specification.
-/
namespace Takenoco
open Spec

/-- One iteration in terms of the outcome of its children. -/
def iterEnd (k : Nat) (c : Ctx) : Outcome → Out IterEnd
  | .matched c' => .ok (.next { c' with qty := k })
  | .unmatched => .ok (.brk c)
  | .failed c' e => .ok (.ret c' e)
  | .panicked p => .panic p
  | .timedOut => .timeout

theorem iteration_seq {ps : List Sem} {c : Ctx} {r : Outcome} (h : Seq ps c r)
    (hc : c.status = .matched) (b k : Nat) : iteration none false ps b k c = iterEnd k c r := by
  obtain ⟨k', hk⟩ := childLoop_seq h 0
  unfold iteration
  rw [hk]
  cases r with
  | matched c' => simp [seqEnd, iterEnd, callFn, h.matched_status hc]
  | unmatched => rfl
  | failed c' e => rfl
  | panicked p => rfl
  | timedOut => rfl

theorem Spec.Choice.matched_status {ps : List Sem} {c c' : Ctx} (h : Choice ps c (.matched c')) :
    c'.status = .matched := by
  generalize hr : Outcome.matched c' = r at h
  induction h with
  | exhausted => cases hr
  | skip _ _ ih => exact ih hr
  | take hp _ => subst hr; exact Outcome.of_matched_status hp

theorem iteration_choice {ps : List Sem} {c : Ctx} {r : Outcome} (h : Choice ps c r)
    (hps : ps ≠ []) (b k : Nat) : iteration none true ps b k c = iterEnd k c r := by
  have hl : 0 < ps.length := List.length_pos_iff.2 hps
  unfold iteration
  rw [childLoop_choice h 0]
  cases r with
  | matched c' => simp [choiceEnd, iterEnd, callFn, h.matched_status]
  | unmatched => simp [choiceEnd, iterEnd, hl]
  | failed c' e => rfl
  | panicked p => rfl
  | timedOut => rfl

/-- The result of a parser that runs its children once, in terms of the outcome of the children.
`ctx` is the given context with the class name replaced. -/
def onceResult (neg rew : Bool) (tr : Option (List TSem)) (ctx : Ctx) : Outcome → Out PRes
  | .matched c' =>
    if neg then .ok ({ c' with qty := 0, status := .unmatched }, none)
    else applyTransforms tr ctx (if rew then ctx else { c' with qty := 1 })
  | .unmatched =>
    if neg then applyTransforms tr ctx (if rew then ctx else { ctx with qty := 0, status := .matched })
    else .ok ({ ctx with status := .unmatched }, none)
  | .failed c' e => .ok (c', e)
  | .panicked p => .panic p
  | .timedOut => .timeout

theorem baseParser_once (fuel : Nat) (cls : String) (props : List PropItem) (ps : List Sem)
    (tr : Option (List TSem)) (c : Ctx) (r : Outcome) (neg ex rew : Bool)
    (hp : readProps props = ⟨neg, ex, rew, qtyOnce⟩)
    (hit : iteration none ex ps c.stack.length 0 (enter cls c) = iterEnd 0 (enter cls c) r)
    (hr : ∀ c', r = .matched c' → c'.status = .matched) :
    baseParser fuel cls none props ps tr c = onceResult neg rew tr { c with cls := cls } r := by
  have hit' : iteration none ex ps c.stack.length 0 { c with cls := cls, status := .matched } =
      iterEnd 0 (enter cls c) r := hit
  cases r with
  | matched c' =>
    have hs := hr c' rfl
    simp [baseParser, hp, qtyOnce, parentLoop, hit', iterEnd, afterLoop, checkMin, onceResult, callFn]
    cases neg <;> simp [negateStatus, hs]
  | unmatched =>
    simp [baseParser, hp, qtyOnce, parentLoop, hit', iterEnd, afterLoop, checkMin, onceResult, callFn]
    cases neg <;> simp [negateStatus, enter]
  | failed c' e =>
    simp [baseParser, hp, qtyOnce, parentLoop, hit', iterEnd, onceResult]
  | panicked p =>
    simp [baseParser, hp, qtyOnce, parentLoop, hit', iterEnd, onceResult]
  | timedOut =>
    simp [baseParser, hp, qtyOnce, parentLoop, hit', iterEnd, onceResult]

theorem Spec.Seq.run_once {fuel : Nat} {cls : String} {props : List PropItem} {ps : List Sem}
    {tr : Option (List TSem)} {c : Ctx} {r : Outcome} {neg rew : Bool}
    (h : Seq ps (enter cls c) r) (hp : readProps props = ⟨neg, false, rew, qtyOnce⟩) :
    baseParser fuel cls none props ps tr c = onceResult neg rew tr { c with cls := cls } r :=
  baseParser_once fuel cls props ps tr c r neg false rew hp (iteration_seq h rfl _ _)
    (fun _ hr => by subst hr; exact h.matched_status rfl)

theorem Spec.Choice.run_once {fuel : Nat} {cls : String} {props : List PropItem} {ps : List Sem}
    {tr : Option (List TSem)} {c : Ctx} {r : Outcome} {neg rew : Bool}
    (h : Choice ps (enter cls c) r) (hps : ps ≠ []) (hp : readProps props = ⟨neg, true, rew, qtyOnce⟩) :
    baseParser fuel cls none props ps tr c = onceResult neg rew tr { c with cls := cls } r :=
  baseParser_once fuel cls props ps tr c r neg true rew hp (iteration_choice h hps _ _)
    (fun _ hr => by subst hr; exact h.matched_status)

theorem flatGroup_eq {ps : List Sem} {c : Ctx} {r : Outcome} (h : Seq ps (enter ":base:FlatGroup" c) r) :
    flatGroup ps c = onceResult false false none { c with cls := ":base:FlatGroup" } r :=
  h.run_once rfl

theorem group_eq {ps : List Sem} {c : Ctx} {r : Outcome} (h : Seq ps (enter ":base:Group" c) r) :
    group ps c = onceResult false false (some [groupingTransform]) { c with cls := ":base:Group" } r :=
  h.run_once rfl

theorem trans_eq {p : Sem} {tr : List TSem} {c : Ctx} {r : Outcome}
    (h : Seq [p] (enter ":base:Trans" c) r) :
    trans p tr c = onceResult false false (variadic tr) { c with cls := ":base:Trans" } r :=
  h.run_once rfl

theorem lookAhead_eq {ps : List Sem} {c : Ctx} {r : Outcome} (h : Seq ps (enter ":base:LookAhead" c) r) :
    lookAhead ps c = onceResult false true none { c with cls := ":base:LookAhead" } r :=
  h.run_once rfl

theorem lookAheadN_eq {ps : List Sem} {c : Ctx} {r : Outcome}
    (h : Seq ps (enter ":base:LookAheadN" c) r) :
    lookAheadN ps c = onceResult true true none { c with cls := ":base:LookAheadN" } r :=
  h.run_once rfl

theorem first_eq {ps : List Sem} {c : Ctx} {r : Outcome} (h : Choice ps (enter ":base:First" c) r)
    (hps : ps ≠ []) :
    first ps c = onceResult false false none { c with cls := ":base:First" } r :=
  h.run_once hps rfl

theorem seq_single {p : Sem} {c : Ctx} {r : Outcome} (h : Outcome.of (p c) = r) : Seq [p] c r := by
  cases r with
  | matched c' => exact .step h .done
  | unmatched => exact .stop h (by simp)
  | failed => exact .stop h (by simp)
  | panicked => exact .stop h (by simp)
  | timedOut => exact .stop h (by simp)

/-! ### Repetition -/

theorem parentLoop_reps {ps : List Sem} {k n : Nat} {c c' : Ctx} (h : Reps ps k c n c')
    (hc : c.status = .matched) (u : Bool) (b m : Nat) :
    parentLoop u (iteration none false ps b) (n + m) k c =
      parentLoop u (iteration none false ps b) m (k + n) c' := by
  induction h generalizing m with
  | zero => simp
  | @succ k n c c1 c' hs _ ih =>
    have h1 : c1.status = .matched := hs.matched_status hc
    rw [show n + 1 + m = (n + m) + 1 by omega]
    rw [parentLoop, iteration_seq hs hc]
    simp only [iterEnd]
    rw [ih h1]
    congr 1; omega

theorem Spec.Reps.status {ps : List Sem} {k n : Nat} {c c' : Ctx} (h : Reps ps k c n c')
    (hc : c.status = .matched) : c'.status = .matched := by
  induction h with
  | zero => exact hc
  | succ hs _ ih => exact ih (hs.matched_status hc)

/-- The number of iterations the `PARENT` loop may do. -/
def iterLimit (fuel : Nat) (t : Times) : Nat := if t.max < 0 then fuel else t.max.toNat

/-- The result of a repetition after `n` matching iterations that led to `c'`, when the next iteration
ends as `r` (`none`: there is no next iteration because `Max` has been reached). -/
def repResult (t : Times) (n : Nat) (c' : Ctx) : Option Outcome → Out PRes
  | none | some .unmatched =>
    if t.min ≤ n then .ok ({ c' with qty := n }, none) else .ok ({ c' with status := .unmatched }, none)
  | some (.matched _) => .timeout
  | some (.failed c e) => .ok (c, e)
  | some (.panicked p) => .panic p
  | some .timedOut => .timeout

theorem afterLoop_rep (t : Times) (ctx c' : Ctx) (n : Nat) (hc : c'.status = .matched) :
    afterLoop ⟨false, false, false, t⟩ none none ctx n c' = repResult t n c' none := by
  by_cases h : t.min ≤ n
  · have : ¬ (0 ≤ t.min ∧ (n : Int) < t.min) := by omega
    simp [afterLoop, checkMin, negateStatus, this, hc, callFn, applyTransforms, repResult, h]
  · have : (0 ≤ t.min ∧ (n : Int) < t.min) := by omega
    simp [afterLoop, checkMin, negateStatus, this, repResult, h]

theorem readProps_times (t : Times) : readProps [.times t] = ⟨false, false, false, t⟩ := rfl

/-- A repetition that stops because the next iteration does not match. -/
theorem repeatP_stop {fuel : Nat} {t : Times} {ps : List Sem} {c c' : Ctx} {n : Nat} {r : Outcome}
    (h : Reps ps 0 (enter ":base:Repeat" c) n c') (hn : n < iterLimit fuel t) (hr : Seq ps c' r)
    (hne : ∀ c'', r ≠ .matched c'') :
    repeatP fuel t ps c = repResult t n c' (some r) := by
  have hs : c'.status = .matched := h.status rfl
  unfold repeatP baseParser
  rw [readProps_times]
  obtain ⟨m, hm⟩ : ∃ m, iterLimit fuel t = n + (m + 1) := ⟨iterLimit fuel t - n - 1, by omega⟩
  have hlim : (if decide (t.max < 0) = true then fuel else t.max.toNat) = n + (m + 1) := by
    rw [← hm]; simp [iterLimit]
  have hP : ∀ u, parentLoop u (iteration none false ps c.stack.length) (n + (m + 1)) 0
      { c with cls := ":base:Repeat", status := .matched } =
      parentLoop u (iteration none false ps c.stack.length) (m + 1) (0 + n) c' :=
    fun u => parentLoop_reps h rfl u _ _
  simp only [hlim]
  rw [hP, parentLoop, iteration_seq hr hs]
  cases r with
  | matched c'' => exact absurd rfl (hne c'')
  | unmatched => simp only [iterEnd, Nat.zero_add]; rw [afterLoop_rep _ _ _ _ hs]; rfl
  | failed c'' e => rfl
  | panicked p => rfl
  | timedOut => rfl

/-- A repetition that stops because `Max` iterations have matched. -/
theorem repeatP_max {fuel : Nat} {t : Times} {ps : List Sem} {c c' : Ctx} {n : Nat}
    (h : Reps ps 0 (enter ":base:Repeat" c) n c') (hn : t.max = n) :
    repeatP fuel t ps c = repResult t n c' none := by
  have hs : c'.status = .matched := h.status rfl
  unfold repeatP baseParser
  rw [readProps_times]
  have hP : ∀ u, parentLoop u (iteration none false ps c.stack.length) (n + 0) 0
      { c with cls := ":base:Repeat", status := .matched } =
      parentLoop u (iteration none false ps c.stack.length) 0 (0 + n) c' :=
    fun u => parentLoop_reps h rfl u _ _
  have h0 : ¬ (t.max < 0) := by omega
  have h1 : t.max.toNat = n + 0 := by omega
  simp only [h0, decide_false, h1]
  simp only [Bool.false_eq_true, if_false]
  rw [hP]
  simp only [parentLoop, Nat.zero_add]
  exact afterLoop_rep _ _ _ _ hs

/-- A repetition without bound whose body matches more often than the fuel allows times out. -/
theorem repeatP_fuel {fuel : Nat} {t : Times} {ps : List Sem} {c c' : Ctx}
    (h : Reps ps 0 (enter ":base:Repeat" c) fuel c') (hn : t.max < 0) :
    repeatP fuel t ps c = .timeout := by
  unfold repeatP baseParser
  rw [readProps_times]
  have hP : ∀ u, parentLoop u (iteration none false ps c.stack.length) (fuel + 0) 0
      { c with cls := ":base:Repeat", status := .matched } =
      parentLoop u (iteration none false ps c.stack.length) 0 (0 + fuel) c' :=
    fun u => parentLoop_reps h rfl u _ _
  have := hP true
  simp only [Nat.add_zero] at this
  simp [hn, this, parentLoop]

/-- Every repetition ends in one of the three ways. -/
theorem reps_cases (ps : List Sem) (lim : Nat) (k : Nat) (c : Ctx) :
    (∃ c', Reps ps k c lim c') ∨
    (∃ n c' r, n < lim ∧ Reps ps k c n c' ∧ Seq ps c' r ∧ ∀ c'', r ≠ .matched c'') := by
  induction lim generalizing k c with
  | zero => exact .inl ⟨c, .zero⟩
  | succ lim ih =>
    obtain ⟨r, hr⟩ := Seq.total ps c
    cases r with
    | matched c1 =>
      rcases ih (k + 1) { c1 with qty := k } with ⟨c', h⟩ | ⟨n, c', r, hn, h, h2, h3⟩
      · exact .inl ⟨c', .succ hr h⟩
      · exact .inr ⟨n + 1, c', r, by omega, .succ hr h, h2, h3⟩
    | unmatched => exact .inr ⟨0, c, _, by omega, .zero, hr, by simp⟩
    | failed => exact .inr ⟨0, c, _, by omega, .zero, hr, by simp⟩
    | panicked => exact .inr ⟨0, c, _, by omega, .zero, hr, by simp⟩
    | timedOut => exact .inr ⟨0, c, _, by omega, .zero, hr, by simp⟩

theorem Spec.Reps.det {ps : List Sem} {k n : Nat} {c c1 c2 : Ctx} (h1 : Reps ps k c n c1)
    (h2 : Reps ps k c n c2) : c1 = c2 := by
  induction h1 with
  | zero => cases h2; rfl
  | succ hs _ ih =>
    cases h2 with
    | succ hs' h2 => have := hs.det hs'; cases this; exact ih h2

/-- A repetition cannot both go on and stop. -/
theorem Spec.Reps.stop_unique {ps : List Sem} {k n m : Nat} {c c1 c2 : Ctx} {r : Outcome}
    (h1 : Reps ps k c n c1) (hr : Seq ps c1 r) (hne : ∀ c', r ≠ .matched c')
    (h2 : Reps ps k c m c2) : m ≤ n := by
  induction h1 generalizing m with
  | zero =>
    cases h2 with
    | zero => omega
    | succ hs _ => exact absurd (hr.det hs) (hne _)
  | succ hs _ ih =>
    cases h2 with
    | zero => omega
    | succ hs' h2 => have := hs.det hs'; cases this; have := ih hr h2; omega

end Takenoco
