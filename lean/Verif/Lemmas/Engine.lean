import Verif.Model.Parsers
import Verif.Spec.Peg
/-
Lemmas connecting the loops of the engine with the relational specification.
-/
namespace Takenoco
open Spec

theorem Spec.Outcome.of_ok_fix (o : Ctx) (err : Option Err) :
    Outcome.of (.ok (o, err)) =
      match (fixStatus o err).status with
      | .matched => .matched (fixStatus o err)
      | .unmatched => .unmatched
      | .error => .failed (fixStatus o err) err := by
  cases err with
  | none => simp [Outcome.of, fixStatus]; cases h : o.status <;> simp
  | some e =>
    by_cases h : o.status = .error
    · simp [Outcome.of, fixStatus, h]; cases o; simp_all
    · simp [Outcome.of, fixStatus, h]

/-- How the `CHILDREN` loop of a sequence ends, in terms of the outcome of the sequence. -/
def seqEnd (k : Nat) : Outcome → Out ChildEnd
  | .matched c => .ok (.fell k c)
  | .unmatched => .ok .unmatched
  | .failed c e => .ok (.ret c e)
  | .panicked p => .panic p
  | .timedOut => .timeout

theorem childLoop_seq {ps : List Sem} {c : Ctx} {r : Outcome} (h : Seq ps c r) (k : Nat) :
    ∃ k', childLoop false ps k c = seqEnd k' r := by
  induction h generalizing k with
  | done => exact ⟨k, rfl⟩
  | @step p ps c c' r hp _ ih =>
    obtain ⟨k', ih⟩ := ih (k + 1)
    refine ⟨k', ?_⟩
    simp only [childLoop]
    cases hpc : p c with
    | panic x => simp [hpc, Outcome.of] at hp
    | timeout => simp [hpc, Outcome.of] at hp
    | ok oe =>
      obtain ⟨o, e⟩ := oe
      rw [hpc, Outcome.of_ok_fix] at hp
      cases hs : (fixStatus o e).status <;> simp only [hs] at hp ⊢ <;> cases hp
      exact ih
  | @stop p ps c r hp hr =>
    refine ⟨0, ?_⟩
    simp only [childLoop]
    cases hpc : p c with
    | panic x => simp [hpc, Outcome.of] at hp; subst hp; rfl
    | timeout => simp [hpc, Outcome.of] at hp; subst hp; rfl
    | ok oe =>
      obtain ⟨o, e⟩ := oe
      rw [hpc, Outcome.of_ok_fix] at hp
      cases hs : (fixStatus o e).status <;> simp only [hs] at hp ⊢ <;> subst hp
      · exact absurd rfl (hr _)
      · rfl
      · rfl

theorem Spec.Seq.total (ps : List Sem) (c : Ctx) : ∃ r, Seq ps c r := by
  induction ps generalizing c with
  | nil => exact ⟨_, .done⟩
  | cons p ps ih =>
    cases h : Outcome.of (p c) with
    | matched c' => obtain ⟨r, hr⟩ := ih c'; exact ⟨r, .step h hr⟩
    | unmatched => exact ⟨_, .stop h (by simp)⟩
    | failed => exact ⟨_, .stop h (by simp)⟩
    | panicked => exact ⟨_, .stop h (by simp)⟩
    | timedOut => exact ⟨_, .stop h (by simp)⟩

theorem Spec.Seq.det {ps : List Sem} {c : Ctx} {r r' : Outcome} (h : Seq ps c r) (h' : Seq ps c r') :
    r = r' := by
  induction h with
  | done => cases h'; rfl
  | step hp _ ih =>
    cases h' with
    | step hp' h' => rw [hp] at hp'; cases hp'; exact ih h'
    | stop hp' hr => rw [hp] at hp'; exact absurd hp'.symm (hr _)
  | stop hp hr =>
    cases h' with
    | step hp' h' => rw [hp'] at hp; exact absurd hp.symm (hr _)
    | stop hp' _ => rw [← hp, ← hp']

theorem Spec.Choice.total (ps : List Sem) (c : Ctx) : ∃ r, Choice ps c r := by
  induction ps with
  | nil => exact ⟨_, .exhausted⟩
  | cons p ps ih =>
    by_cases h : Outcome.of (p c) = .unmatched
    · obtain ⟨r, hr⟩ := ih; exact ⟨r, .skip h hr⟩
    · exact ⟨_, .take rfl h⟩

theorem Spec.Choice.det {ps : List Sem} {c : Ctx} {r r' : Outcome} (h : Choice ps c r)
    (h' : Choice ps c r') : r = r' := by
  induction h with
  | exhausted => cases h'; rfl
  | skip hp _ ih =>
    cases h' with
    | skip _ h' => exact ih h'
    | take hp' hr => exact absurd (hp'.symm.trans hp) hr
  | take hp hr =>
    cases h' with
    | skip hp' _ => exact absurd (hp.symm.trans hp') hr
    | take hp' _ => rw [← hp, ← hp']

/-- How the `CHILDREN` loop of a choice ends. -/
def choiceEnd (k : Nat) (c : Ctx) : Outcome → Out ChildEnd
  | .matched c' => .ok (.fell (k + 1) c')
  | .unmatched => .ok (.fell k c)
  | .failed c' e => .ok (.ret c' e)
  | .panicked p => .panic p
  | .timedOut => .timeout

theorem childLoop_choice {ps : List Sem} {c : Ctx} {r : Outcome} (h : Choice ps c r) (k : Nat) :
    childLoop true ps k c = choiceEnd k c r := by
  induction h with
  | exhausted => rfl
  | @skip p ps c r hp _ ih =>
    simp only [childLoop]
    cases hpc : p c with
    | panic x => simp [hpc, Outcome.of] at hp
    | timeout => simp [hpc, Outcome.of] at hp
    | ok oe =>
      obtain ⟨o, e⟩ := oe
      rw [hpc, Outcome.of_ok_fix] at hp
      cases hs : (fixStatus o e).status <;> simp only [hs] at hp ⊢ <;> cases hp
      exact ih
  | @take p ps c r hp hr =>
    simp only [childLoop]
    cases hpc : p c with
    | panic x => simp [hpc, Outcome.of] at hp; subst hp; rfl
    | timeout => simp [hpc, Outcome.of] at hp; subst hp; rfl
    | ok oe =>
      obtain ⟨o, e⟩ := oe
      rw [hpc, Outcome.of_ok_fix] at hp
      cases hs : (fixStatus o e).status <;> simp only [hs] at hp ⊢ <;> subst hp
      · rfl
      · exact absurd rfl hr
      · rfl

theorem Spec.Outcome.of_matched_status {r : Out PRes} {c : Ctx} (h : Outcome.of r = .matched c) :
    c.status = .matched := by
  cases r with
  | panic x => simp [Outcome.of] at h
  | timeout => simp [Outcome.of] at h
  | ok oe =>
    obtain ⟨o, e⟩ := oe
    rw [Outcome.of_ok_fix] at h
    cases hs : (fixStatus o e).status <;> simp only [hs] at h <;> cases h
    exact hs

theorem Spec.Outcome.of_failed_status {r : Out PRes} {c : Ctx} {e : Option Err}
    (h : Outcome.of r = .failed c e) : c.status = .error := by
  cases r with
  | panic x => simp [Outcome.of] at h
  | timeout => simp [Outcome.of] at h
  | ok oe =>
    obtain ⟨o, e⟩ := oe
    rw [Outcome.of_ok_fix] at h
    cases hs : (fixStatus o e).status <;> simp only [hs] at h <;> cases h
    exact hs

theorem Spec.Outcome.of_eq_matched {r : Out PRes} {c : Ctx} (h : Outcome.of r = .matched c) :
    r = .ok (c, none) := by
  cases r with
  | panic x => simp [Outcome.of] at h
  | timeout => simp [Outcome.of] at h
  | ok oe =>
    obtain ⟨o, e⟩ := oe
    cases e with
    | none => simp only [Outcome.of] at h; cases hs : o.status <;> simp only [hs] at h <;> cases h; rfl
    | some e => simp [Outcome.of] at h

theorem Spec.Seq.matched_status {ps : List Sem} {c c' : Ctx} (h : Seq ps c (.matched c'))
    (hc : c.status = .matched) : c'.status = .matched := by
  generalize hr : Outcome.matched c' = r at h
  induction h with
  | done => cases hr; exact hc
  | step hp _ ih => exact ih (Outcome.of_matched_status hp) hr
  | stop _ hne => exact absurd hr.symm (hne _)

end Takenoco
