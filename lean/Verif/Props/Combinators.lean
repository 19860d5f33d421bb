import Verif.Lemmas.Combinators
import Verif.Model.StrParsers
/-
Properties C01-C06, C14: the meaning of the combinators over arbitrary child parsers.
-/
namespace Takenoco
open Spec

/-! ### C01 FlatGroup is sequencing -/

/-- C01. `FlatGroup(ps)` matches exactly when all of `ps` match one after the other, each in the context
returned by the previous one, and returns the context of the last one (with quantity 1). -/
theorem C01_flatGroup_matched (ps : List Sem) (c o : Ctx) :
    Outcome.of (flatGroup ps c) = .matched o ↔
      ∃ c', Seq ps (enter ":base:FlatGroup" c) (.matched c') ∧ o = { c' with qty := 1 } := by
  obtain ⟨r, hr⟩ := Seq.total ps (enter ":base:FlatGroup" c)
  rw [flatGroup_eq hr]
  constructor
  · intro h
    cases r with
    | matched c' =>
      have hs := hr.matched_status rfl
      simp [onceResult, applyTransforms, Outcome.of, hs] at h
      exact ⟨c', hr, by rw [hs]; exact h.symm⟩
    | unmatched => simp [onceResult, Outcome.of] at h
    | failed c' e =>
      have hs := hr.failed_status
      cases e <;> simp [onceResult, Outcome.of, hs] at h
    | panicked p => simp [onceResult, Outcome.of] at h
    | timedOut => simp [onceResult, Outcome.of] at h
  · rintro ⟨c', h, rfl⟩
    have := hr.det h
    subst this
    have hs := h.matched_status rfl
    simp [onceResult, applyTransforms, Outcome.of, hs]

/-- C01. `FlatGroup(ps)` is unmatched exactly when some parser of the sequence is (all before it having
matched). -/
theorem C01_flatGroup_unmatched (ps : List Sem) (c : Ctx) :
    Outcome.of (flatGroup ps c) = .unmatched ↔ Seq ps (enter ":base:FlatGroup" c) .unmatched := by
  obtain ⟨r, hr⟩ := Seq.total ps (enter ":base:FlatGroup" c)
  rw [flatGroup_eq hr]
  constructor
  · intro h
    cases r with
    | matched c' =>
      have hs := hr.matched_status rfl
      simp [onceResult, applyTransforms, Outcome.of, hs] at h
    | unmatched => exact hr
    | failed c' e =>
      have hs := hr.failed_status
      cases e <;> simp [onceResult, Outcome.of, hs] at h
    | panicked p => simp [onceResult, Outcome.of] at h
    | timedOut => simp [onceResult, Outcome.of] at h
  · intro h
    have := hr.det h
    subst this
    simp [onceResult, Outcome.of]

/-- C01. An unmatched `FlatGroup` returns the context it was given, apart from status and class name. -/
theorem C01_flatGroup_unmatched_ctx (ps : List Sem) (c o : Ctx)
    (h : flatGroup ps c = .ok (o, none)) (ho : o.status = .unmatched) :
    o = { c with cls := ":base:FlatGroup", status := .unmatched } := by
  obtain ⟨r, hr⟩ := Seq.total ps (enter ":base:FlatGroup" c)
  rw [flatGroup_eq hr] at h
  cases r with
  | matched c' =>
    have hs := hr.matched_status rfl
    simp [onceResult, applyTransforms] at h
    subst h; simp [hs] at ho
  | unmatched => simp [onceResult] at h; exact h.symm
  | failed c' e =>
    have hs := hr.failed_status
    simp [onceResult] at h
    rw [h.1] at hs; simp [hs] at ho
  | panicked p => simp [onceResult] at h
  | timedOut => simp [onceResult] at h

/-- C01. A failure, panic or non-termination of the sequence is one of `FlatGroup`, and there are no
others. -/
theorem C01_flatGroup_other (ps : List Sem) (c : Ctx) (r : Outcome)
    (h1 : ∀ c', r ≠ .matched c') :
    Outcome.of (flatGroup ps c) = r ↔ Seq ps (enter ":base:FlatGroup" c) r := by
  obtain ⟨r', hr⟩ := Seq.total ps (enter ":base:FlatGroup" c)
  have key : ∀ x, r' = x → (∀ c', x ≠ .matched c') → Outcome.of (flatGroup ps c) = x := by
    rintro x rfl hx
    rw [flatGroup_eq hr]
    cases r' with
    | matched c' => exact absurd rfl (hx _)
    | unmatched => simp [onceResult, Outcome.of]
    | failed c' e =>
      have hs := hr.failed_status
      cases e with
      | none => simp [onceResult, Outcome.of, hs]
      | some e => simp only [onceResult]; exact Outcome.of_failed hs
    | panicked p => rfl
    | timedOut => rfl
  constructor
  · intro h
    by_cases hm : ∃ c', r' = .matched c'
    · obtain ⟨c', rfl⟩ := hm
      have := (C01_flatGroup_matched ps c _).2 ⟨c', hr, rfl⟩
      rw [this] at h; exact absurd h.symm (h1 _)
    · have := key r' rfl (fun c' hc => hm ⟨c', hc⟩)
      rw [this] at h; subst h; exact hr
  · intro h
    exact key r (hr.det h) h1

/-- Two digits in a row are matched as a sequence; the second one starts where the first one ended. -/
example : ∃ o, Outcome.of (flatGroup [number, alpha] (newStrCtx b!"7x")) = .matched o ∧
    o.pos = 2 ∧ o.stack.length = 2 := ⟨_, rfl, rfl, rfl⟩
example : Outcome.of (flatGroup [number, alpha] (newStrCtx b!"77")) = .unmatched := rfl

/-! ### C02 First is ordered choice with clean backtracking -/

/-- C02. `First(ps)` (with at least one alternative) matches exactly when some alternative matches from
the given context and all earlier ones are unmatched; its result is the result of that alternative. -/
theorem C02_first_matched (ps : List Sem) (hne : ps ≠ []) (c o : Ctx) :
    Outcome.of (first ps c) = .matched o ↔
      ∃ pre p post c', ps = pre ++ p :: post ∧
        (∀ q ∈ pre, Outcome.of (q (enter ":base:First" c)) = .unmatched) ∧
        Outcome.of (p (enter ":base:First" c)) = .matched c' ∧ o = { c' with qty := 1 } := by
  have aux : ∀ {ps : List Sem} {d c' : Ctx}, Choice ps d (.matched c') ↔
      ∃ pre p post, ps = pre ++ p :: post ∧ (∀ q ∈ pre, Outcome.of (q d) = .unmatched) ∧
        Outcome.of (p d) = .matched c' := by
    intro ps d c'
    constructor
    · intro h
      generalize hr : Outcome.matched c' = r at h
      induction h with
      | exhausted => cases hr
      | @skip p ps c r hp _ ih =>
        obtain ⟨pre, q, post, rfl, h2, h3⟩ := ih hr
        exact ⟨p :: pre, q, post, rfl, by simpa [hp] using h2, h3⟩
      | @take p ps c r hp _ => subst hr; exact ⟨[], p, ps, rfl, by simp, hp⟩
    · rintro ⟨pre, p, post, rfl, h2, h3⟩
      exact Choice.append_unmatched h2 (.take h3 (by simp))
  obtain ⟨r, hr⟩ := Choice.total ps (enter ":base:First" c)
  rw [first_eq hr hne]
  constructor
  · intro h
    cases r with
    | matched c' =>
      have hs := hr.matched_status
      simp [onceResult, applyTransforms, Outcome.of, hs] at h
      obtain ⟨pre, p, post, h1, h2, h3⟩ := aux.1 hr
      exact ⟨pre, p, post, c', h1, h2, h3, by rw [hs]; exact h.symm⟩
    | unmatched => simp [onceResult, Outcome.of] at h
    | failed c' e =>
      have hs := hr.failed_status
      cases e <;> simp [onceResult, Outcome.of, hs] at h
    | panicked p => simp [onceResult, Outcome.of] at h
    | timedOut => simp [onceResult, Outcome.of] at h
  · rintro ⟨pre, p, post, c', h1, h2, h3, rfl⟩
    have h := aux.2 ⟨pre, p, post, h1, h2, h3⟩
    have := hr.det h
    subst this
    have hs := h.matched_status
    simp [onceResult, applyTransforms, Outcome.of, hs]

/-- C02. `First(ps)` (with at least one alternative) is unmatched exactly when every alternative is
unmatched from the given context; then the given context is returned. -/
theorem C02_first_unmatched (ps : List Sem) (hne : ps ≠ []) (c : Ctx) :
    (∃ o, first ps c = .ok (o, none) ∧ o.status = .unmatched) ↔
      ∀ p ∈ ps, Outcome.of (p (enter ":base:First" c)) = .unmatched := by
  have aux : ∀ {ps : List Sem} {d : Ctx}, Choice ps d .unmatched ↔
      ∀ p ∈ ps, Outcome.of (p d) = .unmatched := by
    intro ps d
    constructor
    · intro h
      generalize hr : Outcome.unmatched = r at h
      induction h with
      | exhausted => simp
      | skip hp _ ih => intro q hq; subst hr; exact (List.mem_cons.1 hq).elim (fun h => h ▸ hp) (ih rfl q)
      | take _ hn => exact absurd hr.symm hn
    · intro h
      simpa using Choice.append_unmatched h .exhausted
  obtain ⟨r, hr⟩ := Choice.total ps (enter ":base:First" c)
  rw [first_eq hr hne, ← aux]
  constructor
  · rintro ⟨o, h, ho⟩
    cases r with
    | matched c' =>
      have hs := hr.matched_status
      simp [onceResult, applyTransforms] at h
      subst h; simp [hs] at ho
    | unmatched => exact hr
    | failed c' e =>
      have hs := hr.failed_status
      simp [onceResult] at h
      rw [h.1] at hs; simp [hs] at ho
    | panicked p => simp [onceResult] at h
    | timedOut => simp [onceResult] at h
  · intro h
    have := hr.det h
    subst this
    exact ⟨_, rfl, rfl⟩

/-- C02. When no alternative matches, nothing but status and class name of the context changes. -/
theorem C02_first_unmatched_ctx (ps : List Sem) (hne : ps ≠ []) (c o : Ctx)
    (h : first ps c = .ok (o, none)) (ho : o.status = .unmatched) :
    o = { c with cls := ":base:First", status := .unmatched } := by
  have hall := (C02_first_unmatched ps hne c).1 ⟨o, h, ho⟩
  have hr : Choice ps (enter ":base:First" c) .unmatched := by
    simpa using Choice.append_unmatched hall .exhausted
  rw [first_eq hr hne] at h
  simp [onceResult] at h
  exact h.symm

/-- `First()` without alternatives matches (the library does not treat it as the empty choice). -/
theorem C02_first_empty (c : Ctx) : ∃ o, Outcome.of (first [] c) = .matched o ∧ o.pos = c.pos ∧
    o.stack = c.stack := ⟨_, rfl, rfl, rfl⟩

/-- The first alternative consumes a digit before it turns out not to match; the second one starts
afresh. -/
example : ∃ o, Outcome.of (first [flatGroup [number, alpha], number] (newStrCtx b!"77")) = .matched o ∧
    o.pos = 1 ∧ o.stack.length = 1 := ⟨_, rfl, rfl, rfl⟩
example : Outcome.of (first [alpha, whitespace] (newStrCtx b!"77")) = .unmatched := rfl

/-! ### C03 Errors are never backtracked -/

/-- C03. When a parser that is reached inside arbitrarily nested combinators fails with an error, the
whole parser fails with this very error, in the failing parser's context (a surrounding `Indirect` may
have replaced the class name). -/
theorem C03_errors_propagate {p q : Sem} {c d o : Ctx} {e : Err} (hreach : Reaches p c q d)
    (hq : Outcome.of (q d) = .failed o (some e)) :
    ∃ o', Outcome.of (p c) = .failed o' (some e) ∧ SameButCls o' o := by
  have once : ∀ {neg rew tr ctx o'}, o'.status = .error →
      Outcome.of (onceResult neg rew tr ctx (.failed o' (some e))) = .failed o' (some e) :=
    fun h => Outcome.of_failed h
  induction hreach with
  | here => exact ⟨o, hq, rfl⟩
  | flatGroup hpre _ ih =>
    obtain ⟨o', ih, hsame⟩ := ih hq
    have hs := Outcome.of_failed_status ih
    rw [flatGroup_eq (seq_fail_here hpre ih)]
    exact ⟨o', once hs, hsame⟩
  | group hpre _ ih =>
    obtain ⟨o', ih, hsame⟩ := ih hq
    have hs := Outcome.of_failed_status ih
    rw [group_eq (seq_fail_here hpre ih)]
    exact ⟨o', once hs, hsame⟩
  | first hpre _ ih =>
    obtain ⟨o', ih, hsame⟩ := ih hq
    have hs := Outcome.of_failed_status ih
    rw [first_eq (Choice.append_unmatched hpre (.take ih (by simp))) (by simp)]
    exact ⟨o', once hs, hsame⟩
  | lookAhead hpre _ ih =>
    obtain ⟨o', ih, hsame⟩ := ih hq
    have hs := Outcome.of_failed_status ih
    rw [lookAhead_eq (seq_fail_here hpre ih)]
    exact ⟨o', once hs, hsame⟩
  | lookAheadN hpre _ ih =>
    obtain ⟨o', ih, hsame⟩ := ih hq
    have hs := Outcome.of_failed_status ih
    rw [lookAheadN_eq (seq_fail_here hpre ih)]
    exact ⟨o', once hs, hsame⟩
  | @lookBehind minN maxN i pre post p q c c1 d h1 h2 h3 hj hb _ ih =>
    obtain ⟨o', ih, hsame⟩ := ih hq
    have hs := Outcome.of_failed_status ih
    refine ⟨o', ?_, hsame⟩
    have := lookBehindBase_stop' (neg := false) h1 h2 h3 (seq_fail_here (post := post) hb ih)
      (fun j a b d => ⟨_, hj j a b d, .inl rfl⟩)
    unfold lookBehind
    rw [this]
    exact Outcome.of_failed hs
  | @lookBehindN minN maxN i pre post p q c c1 d h1 h2 h3 hj hb _ ih =>
    obtain ⟨o', ih, hsame⟩ := ih hq
    have hs := Outcome.of_failed_status ih
    refine ⟨o', ?_, hsame⟩
    have := lookBehindBase_stop' (neg := true) h1 h2 h3 (seq_fail_here (post := post) hb ih)
      (fun j a b d => ⟨_, hj j a b d, .inl rfl⟩)
    unfold lookBehindN
    rw [this]
    exact Outcome.of_failed hs
  | @«repeat» fuel n t pre post p q c c1 c2 d hreps hn hpre _ ih =>
    obtain ⟨o', ih, hsame⟩ := ih hq
    have hs := Outcome.of_failed_status ih
    refine ⟨o', ?_, hsame⟩
    rw [repeatP_stop (r := .failed o' (some e)) hreps ?_ (seq_fail_here hpre ih) (by simp)]
    · exact Outcome.of_failed hs
    · unfold iterLimit
      split at hn
      · simp [*]
      · rw [if_neg ‹_›]; omega
  | trans _ ih =>
    obtain ⟨o', ih, hsame⟩ := ih hq
    have hs := Outcome.of_failed_status ih
    rw [trans_eq (seq_single ih)]
    exact ⟨o', once hs, hsame⟩
  | @indirect p q c d _ ih =>
    obtain ⟨o', ih, hsame⟩ := ih hq
    obtain ⟨c0, h1, rfl⟩ := outcome_ok_failed ih
    refine ⟨{ c0 with cls := ":base:Indirect", status := .error }, ?_, hsame⟩
    simp only [Takenoco.indirect, lightParser, h1]
    cases hc : c0.status <;> simp [fixStatus, Outcome.of, hc]

/-- An error raised in the third iteration of a repetition, inside the first alternative of a choice:
the second alternative is not taken although it would match. -/
example : ∃ o, Outcome.of (first [repeatP 10 ⟨0, -1⟩ [first [number, flatGroup [alpha, errorP "E"]]], anyS]
    (newStrCtx b!"12x")) = .failed o (some (.msg "E")) := ⟨_, rfl⟩
example : Reaches (first [flatGroup [number, errorP "E"], number]) (newStrCtx b!"12") (errorP "E")
    { enter ":base:FlatGroup" (newStrCtx b!"12") with
      pos := 1, len := 1, qty := 1, cls := ":string:Number",
      stack := [{ Ast.zero with cls := ":string:Number", ty := .string, val := .str b!"1" }] } :=
  .first (pre := []) (by simp) (.flatGroup (pre := [number]) (post := []) (.step rfl .done) .here)

end Takenoco
