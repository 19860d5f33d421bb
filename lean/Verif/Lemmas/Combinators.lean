import Verif.Lemmas.Base
import Verif.Spec.Combinators
/-
Lemmas for the statements about combinators.
-/
namespace Takenoco
open Spec

theorem add_lt_false (a b : Nat) : (a + b < a) = False := by simp

theorem applyTrs_pipe {ctx : Ctx} {ts : List TSem} {asts : List Ast} {r : Except Err (List Ast)}
    (h : Pipe ctx ts asts r) :
    match r with
    | .ok l => applyTrs ctx ts asts = .ok (l, none)
    | .error e => ∃ l, applyTrs ctx ts asts = .ok (l, some e) := by
  induction h with
  | done => rfl
  | @step t ts asts asts' r ht _ ih =>
    cases r with
    | ok l => simp only [applyTrs, ht]; exact ih
    | error e => simp only [applyTrs, ht]; exact ih
  | fail ht => exact ⟨_, by simp only [applyTrs, ht]; rfl⟩

theorem pipe_of_applyTrs {ctx : Ctx} {ts : List TSem} {asts l : List Ast} {e : Option Err}
    (h : applyTrs ctx ts asts = .ok (l, e)) :
    match e with
    | none => Pipe ctx ts asts (.ok l)
    | some e => Pipe ctx ts asts (.error e) := by
  induction ts generalizing asts with
  | nil => simp only [applyTrs] at h; cases h; exact .done
  | cons t ts ih =>
    simp only [applyTrs] at h
    cases ht : t ctx asts with
    | panic x => simp [ht] at h
    | timeout => simp [ht] at h
    | ok le =>
      obtain ⟨a, e'⟩ := le
      cases e' with
      | none =>
        simp only [ht] at h
        have := ih h
        cases e with
        | none => exact .step ht this
        | some e => exact .step ht this
      | some e' => simp only [ht] at h; cases h; exact .fail ht

theorem Spec.Seq.append_matched {pre post : List Sem} {c c1 : Ctx} {r : Outcome}
    (h : Seq pre c (.matched c1)) (h' : Seq post c1 r) : Seq (pre ++ post) c r := by
  generalize hr : Outcome.matched c1 = r0 at h
  induction h with
  | done => cases hr; exact h'
  | step hp _ ih => exact .step hp (ih hr)
  | stop _ hne => exact absurd hr.symm (hne _)

theorem Spec.Choice.append_unmatched {pre post : List Sem} {c : Ctx} {r : Outcome}
    (h : ∀ p ∈ pre, Outcome.of (p c) = .unmatched) (h' : Choice post c r) : Choice (pre ++ post) c r := by
  induction pre with
  | nil => exact h'
  | cons p pre ih =>
    exact .skip (h p (by simp)) (ih fun q hq => h q (by simp [hq]))

theorem seq_fail_here {pre post : List Sem} {p : Sem} {c c1 o : Ctx} {e : Option Err}
    (h : Seq pre c (.matched c1)) (hp : Outcome.of (p c1) = .failed o e) :
    Seq (pre ++ p :: post) c (.failed o e) :=
  h.append_matched (.stop hp (by simp))

theorem Outcome.of_failed {c : Ctx} {e : Err} (h : c.status = .error) :
    Outcome.of (.ok (c, some e)) = .failed c (some e) := by
  simp [Outcome.of]; cases c; simp_all

theorem outcome_ok_failed {r : Out PRes} {c : Ctx} {e : Err} (h : Outcome.of r = .failed c (some e)) :
    ∃ c0, r = .ok (c0, some e) ∧ c = { c0 with status := .error } := by
  cases r with
  | panic x => simp [Outcome.of] at h
  | timeout => simp [Outcome.of] at h
  | ok oe =>
    obtain ⟨o, e'⟩ := oe
    cases e' with
    | none => simp only [Outcome.of] at h; cases hs : o.status <;> simp [hs] at h
    | some e' => simp only [Outcome.of] at h; cases h; exact ⟨o, rfl, rfl⟩

/-- One step of the look-behind loop, in terms of the outcome of the sequence. -/
theorem behind_eq {cls : String} {ps : List Sem} {c : Ctx} {i : Int} {r : Outcome}
    (h : BehindAt cls ps c i r) :
    baseParser 0 cls none [.rewind] ps none { c with pos := ((c.pos : Int) - i).toNat } =
      onceResult false true none { c with pos := ((c.pos : Int) - i).toNat, cls := cls } r :=
  Spec.Seq.run_once h rfl

end Takenoco

namespace Takenoco
open Spec

/-- The class name of the parser inside a look-behind. -/
def behindCls (neg : Bool) : String := if neg then ":base:LookBehindN" else ":base:LookBehind"

/-- The outcomes after which the look-behind loop goes on: unmatched, or status error without an error
value. -/
def GoesOn (r : Outcome) : Prop := r = .unmatched ∨ ∃ o, r = .failed o none

theorem Spec.Seq.failed_status {ps : List Sem} {c o : Ctx} {e : Option Err}
    (h : Seq ps c (.failed o e)) : o.status = .error := by
  generalize hr : Outcome.failed o e = r at h
  induction h with
  | done => cases hr
  | step _ _ ih => exact ih hr
  | stop hp _ => subst hr; exact Outcome.of_failed_status hp

theorem behind_goesOn {cls : String} {ps : List Sem} {c : Ctx} {i : Int} {r : Outcome}
    (h : BehindAt cls ps c i r) (hr : GoesOn r) :
    ∃ o, baseParser 0 cls none [.rewind] ps none { c with pos := ((c.pos : Int) - i).toNat } =
      .ok (o, none) ∧ o.status ≠ .matched := by
  rw [behind_eq h]
  rcases hr with rfl | ⟨o, rfl⟩
  · exact ⟨_, rfl, by simp⟩
  · refine ⟨o, rfl, ?_⟩
    have : o.status = .error := Spec.Seq.failed_status h
    simp [this]

/-- The look-behind loop passes over the distances at which nothing is found. -/
theorem lookBehindLoop_skip {neg : Bool} {ps : List Sem} {c : Ctx} {minN : Int} (d : Nat) (k : Nat)
    (h : ∀ j, minN ≤ j → j < minN + d → j ≤ c.pos →
      ∃ r, BehindAt (behindCls neg) ps c j r ∧ GoesOn r) :
    lookBehindLoop neg (baseParser 0 (behindCls neg) none [.rewind] ps none) c (k + d) minN =
      lookBehindLoop neg (baseParser 0 (behindCls neg) none [.rewind] ps none) c k (minN + d) := by
  induction d generalizing minN with
  | zero => simp
  | succ d ih =>
    have ih' := ih (minN := minN + 1) (fun j h1 h2 h3 => h j (by omega) (by omega) h3)
    rw [show k + (d + 1) = (k + d) + 1 by omega, lookBehindLoop]
    have e : minN + ((d + 1 : Nat) : Int) = minN + 1 + d := by omega
    by_cases hp : (c.pos : Int) - minN < 0
    · simp only [hp, if_true]; rw [ih', e]
    · simp only [hp, if_false]
      obtain ⟨r, hb, hg⟩ := h minN (by omega) (by omega) (by omega)
      obtain ⟨o, ho, hs⟩ := behind_goesOn hb hg
      rw [ho]
      simp only [hs, if_false]
      rw [ih', e]

/-- Some distance is tried at which the loop does not go on, or all are passed over. -/
theorem lookBehind_cases (cls : String) (ps : List Sem) (c : Ctx) (minN : Int) (n : Nat) :
    (∀ j, minN ≤ j → j < minN + n → j ≤ c.pos → ∃ r, BehindAt cls ps c j r ∧ GoesOn r) ∨
    (∃ i r, minN ≤ i ∧ i < minN + n ∧ i ≤ c.pos ∧ BehindAt cls ps c i r ∧ ¬ GoesOn r ∧
      ∀ j, minN ≤ j → j < i → j ≤ c.pos → ∃ r, BehindAt cls ps c j r ∧ GoesOn r) := by
  induction n with
  | zero => left; intro j h1 h2; omega
  | succ n ih =>
    rcases ih with h | ⟨i, r, h1, h2, h3⟩
    · by_cases hp : minN + n ≤ c.pos
      · obtain ⟨r, hr⟩ := Seq.total ps (enter cls { c with pos := ((c.pos : Int) - (minN + n)).toNat })
        by_cases hg : GoesOn r
        · left
          intro j h1 h2 h3
          by_cases hj : j < minN + n
          · exact h j h1 hj h3
          · have : j = minN + n := by omega
            subst this; exact ⟨r, hr, hg⟩
        · right
          exact ⟨minN + n, r, by omega, by omega, hp, hr, hg, fun j a b d => h j a b d⟩
      · left
        intro j h1 h2 h3
        exact h j h1 (by omega) h3
    · exact .inr ⟨i, r, h1, by omega, h3⟩

/-- The result of the look-behind loop at the distance where it stops. -/
def behindResult (neg : Bool) (c : Ctx) (i : Int) : Outcome → Out PRes
  | .matched _ =>
    if neg then
      .ok ({ c with pos := ((c.pos : Int) - i).toNat, cls := behindCls neg, status := .unmatched }, none)
    else .ok (c, none)
  | .unmatched => .timeout
  | .failed o e => .ok (o, e)
  | .panicked p => .panic p
  | .timedOut => .timeout

theorem lookBehindBase_stop {neg : Bool} {ps : List Sem} {c : Ctx} {minN maxN i : Int} {r : Outcome}
    (hs : c.status = .matched) (h1 : minN ≤ i) (h2 : i ≤ maxN) (h3 : i ≤ c.pos)
    (hb : BehindAt (behindCls neg) ps c i r) (hg : ¬ GoesOn r)
    (hj : ∀ j, minN ≤ j → j < i → j ≤ c.pos → ∃ r, BehindAt (behindCls neg) ps c j r ∧ GoesOn r) :
    lookBehindBase neg minN maxN ps c = behindResult neg c i r := by
  obtain ⟨d, hd⟩ : ∃ d : Nat, i = minN + d := ⟨(i - minN).toNat, by omega⟩
  subst hd
  obtain ⟨k, hk⟩ : ∃ k : Nat, (maxN - minN + 1).toNat = (k + 1) + d :=
    ⟨(maxN - minN - d).toNat, by omega⟩
  unfold lookBehindBase
  rw [hk]
  rw [show (if neg = true then ":base:LookBehindN" else ":base:LookBehind") = behindCls neg from rfl]
  rw [lookBehindLoop_skip d (k + 1) hj, lookBehindLoop]
  have hp : ¬ ((c.pos : Int) - (minN + d) < 0) := by omega
  simp only [hp, if_false]
  rw [behind_eq hb]
  cases r with
  | matched c' => cases neg <;> simp [onceResult, applyTransforms, behindResult, hs]
  | unmatched => exact absurd (.inl rfl) hg
  | failed o e =>
    cases e with
    | none => exact absurd (.inr ⟨o, rfl⟩) hg
    | some e => rfl
  | panicked p => rfl
  | timedOut => rfl

/-- As `lookBehindBase_stop`, for failures; here the given status does not matter. -/
theorem lookBehindBase_stop' {neg : Bool} {ps : List Sem} {c o : Ctx} {minN maxN i : Int} {e : Err}
    (h1 : minN ≤ i) (h2 : i ≤ maxN) (h3 : i ≤ c.pos)
    (hb : BehindAt (behindCls neg) ps c i (.failed o (some e)))
    (hj : ∀ j, minN ≤ j → j < i → j ≤ c.pos → ∃ r, BehindAt (behindCls neg) ps c j r ∧ GoesOn r) :
    lookBehindBase neg minN maxN ps c = .ok (o, some e) := by
  obtain ⟨d, hd⟩ : ∃ d : Nat, i = minN + d := ⟨(i - minN).toNat, by omega⟩
  subst hd
  obtain ⟨k, hk⟩ : ∃ k : Nat, (maxN - minN + 1).toNat = (k + 1) + d :=
    ⟨(maxN - minN - d).toNat, by omega⟩
  unfold lookBehindBase
  rw [hk]
  rw [show (if neg = true then ":base:LookBehindN" else ":base:LookBehind") = behindCls neg from rfl]
  rw [lookBehindLoop_skip d (k + 1) hj, lookBehindLoop]
  have hp : ¬ ((c.pos : Int) - (minN + d) < 0) := by omega
  simp only [hp, if_false]
  rw [behind_eq hb]
  rfl

theorem Spec.Choice.failed_status {ps : List Sem} {c o : Ctx} {e : Option Err}
    (h : Choice ps c (.failed o e)) : o.status = .error := by
  generalize hr : Outcome.failed o e = r at h
  induction h with
  | exhausted => cases hr
  | skip _ _ ih => exact ih hr
  | take hp _ => subst hr; exact Outcome.of_failed_status hp

theorem lookBehindBase_none {neg : Bool} {ps : List Sem} {c : Ctx} {minN maxN : Int}
    (hj : ∀ j, minN ≤ j → j ≤ maxN → j ≤ c.pos → ∃ r, BehindAt (behindCls neg) ps c j r ∧ GoesOn r) :
    lookBehindBase neg minN maxN ps c =
      .ok ({ c with status := if neg then .matched else .unmatched }, none) := by
  unfold lookBehindBase
  rw [show (if neg = true then ":base:LookBehindN" else ":base:LookBehind") = behindCls neg from rfl]
  have := lookBehindLoop_skip (neg := neg) (ps := ps) (c := c) (minN := minN) (maxN - minN + 1).toNat 0
    (fun j h1 h2 h3 => hj j h1 (by omega) h3)
  rw [Nat.zero_add] at this
  rw [this]
  rfl

end Takenoco
