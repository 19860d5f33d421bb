import Verif.Spec.Algebra
import Verif.Lemmas.LocalTerms
import Verif.Lemmas.BigStep
/-
Lemmas for the algebraic laws: sequences, choices and repetitions as functions on outcomes, and what follows for parsers that cannot be
told apart.
-/
namespace Takenoco
open Spec

/-! ### Sequences, choices and repetitions as functions -/

/-- What a sequence does. -/
def seqO : List Sem → Ctx → Outcome
  | [], c => .matched c
  | p :: ps, c => (Outcome.of (p c)).onMatch (seqO ps)

theorem seqO_spec (ps : List Sem) (c : Ctx) : Seq ps c (seqO ps c) := by
  induction ps generalizing c with
  | nil => exact .done
  | cons p ps ih =>
    unfold seqO
    cases h : Outcome.of (p c) with
    | matched c' => exact .step h (ih c')
    | _ => exact .stop h (by simp [Outcome.onMatch])

theorem seqO_status {ps : List Sem} {c d : Ctx} (hc : c.status = .matched) (h : seqO ps c = .matched d) : d.status = .matched :=
  Seq.matched_status (h ▸ seqO_spec ps c) hc

theorem onMatch_assoc (r : Outcome) (f g : Ctx → Outcome) : (r.onMatch f).onMatch g = r.onMatch fun c => (f c).onMatch g := by
  cases r <;> rfl

theorem seqO_append (ps qs : List Sem) (c : Ctx) : seqO (ps ++ qs) c = (seqO ps c).onMatch (seqO qs) := by
  induction ps generalizing c with
  | nil => rfl
  | cons p ps ih =>
    simp only [List.cons_append, seqO, onMatch_assoc]
    congr 1
    funext d
    exact ih d

/-- The second, if the first is unmatched. -/
def Spec.Outcome.orElse (r s : Outcome) : Outcome :=
  match r with
  | .unmatched => s
  | r => r

/-- What a choice does. -/
def choiceO : List Sem → Ctx → Outcome
  | [], _ => .unmatched
  | p :: ps, c => (Outcome.of (p c)).orElse (choiceO ps c)

theorem choiceO_spec (ps : List Sem) (c : Ctx) : Choice ps c (choiceO ps c) := by
  induction ps with
  | nil => exact .exhausted
  | cons p ps ih =>
    unfold choiceO
    cases h : Outcome.of (p c) with
    | unmatched => exact .skip h ih
    | _ => exact .take h (by simp [Outcome.orElse])

theorem choiceO_status {ps : List Sem} {c d : Ctx} (h : choiceO ps c = .matched d) : d.status = .matched :=
  Choice.matched_status (h ▸ choiceO_spec ps c)

theorem orElse_assoc (r s t : Outcome) : (r.orElse s).orElse t = r.orElse (s.orElse t) := by cases r <;> rfl

theorem choiceO_append (ps qs : List Sem) (c : Ctx) : choiceO (ps ++ qs) c = (choiceO ps c).orElse (choiceO qs c) := by
  induction ps with
  | nil => rfl
  | cons p ps ih => simp only [List.cons_append, choiceO, ih, orElse_assoc]

/-- What a repetition does that may still match `m` times, after `k` matches. -/
def loopO (t : Times) (ps : List Sem) : Nat → Nat → Ctx → Outcome
  | 0, k, c => if t.max < 0 then .timedOut else repEnd t k c
  | m + 1, k, c =>
    match seqO ps c with
    | .matched d => loopO t ps m (k + 1) { d with qty := k }
    | .unmatched => repEnd t k c
    | r => r

theorem loopO_reps {t : Times} {ps : List Sem} {k n : Nat} {c d : Ctx} (h : Reps ps k c n d) (m : Nat) : loopO t ps (n + m) k c = loopO t ps m (k + n) d := by
  induction h with
  | zero => simp
  | @succ k n c c1 d hs _ ih =>
    rw [show n + 1 + m = (n + m) + 1 by omega, loopO, (seqO_spec ps c).det hs]
    simp only
    rw [ih]
    congr 1; omega

theorem repeat_outcome (fuel : Nat) (t : Times) (ps : List Sem) (c : Ctx) :
    Outcome.of (repeatP fuel t ps c) = loopO t ps (iterLimit fuel t) 0 (enter ":base:Repeat" c) := by
  rcases reps_cases ps (iterLimit fuel t) 0 (enter ":base:Repeat" c) with ⟨d, h⟩ | ⟨n, d, r, hn, h, h2, h3⟩
  · have h1 := loopO_reps (t := t) h 0
    simp only [Nat.add_zero, Nat.zero_add] at h1
    rw [h1, loopO]
    by_cases ht : t.max < 0
    · simp only [iterLimit, ht, if_true] at h
      rw [repeatP_fuel h ht, if_pos ht]
      rfl
    · rw [if_neg ht]
      have hm : t.max = (iterLimit fuel t : Nat) := by simp only [iterLimit, ht, if_false]; omega
      rw [repeatP_max h hm, rep_of (h.status rfl)]
  · obtain ⟨m, hm⟩ : ∃ m, iterLimit fuel t = n + (m + 1) := ⟨iterLimit fuel t - n - 1, by omega⟩
    rw [hm, loopO_reps h, loopO, (seqO_spec ps d).det h2, repeatP_stop h hn h2 h3]
    cases hr : r with
    | matched c'' => exact absurd hr (h3 c'')
    | unmatched => simp only [Nat.zero_add]; exact rep_of (h.status rfl)
    | _ => exact rep_stop_of (by simp) (by simp) (fun c e hc => by first | cases hc; subst hr; exact h2.failed_status | cases hc)

/-! ### The combinators on outcomes -/

theorem flatGroup_outcome (ps : List Sem) (c : Ctx) :
    Outcome.of (flatGroup ps c) = (seqO ps (enter ":base:FlatGroup" c)).onMatch fun d => .matched { d with qty := 1 } := flatGroup_of (seqO_spec _ _)

theorem first_outcome {ps : List Sem} (hps : ps ≠ []) (c : Ctx) :
    Outcome.of (first ps c) = (choiceO ps (enter ":base:First" c)).onMatch fun d => .matched { d with qty := 1 } := first_of hps (choiceO_spec _ _)

theorem lookAhead_outcome (ps : List Sem) {c : Ctx} (hc : c.status = .matched) :
    Outcome.of (lookAhead ps c) = (seqO ps (enter ":base:LookAhead" c)).onMatch fun _ => .matched { c with cls := ":base:LookAhead" } :=
  lookAhead_of hc (seqO_spec _ _)

theorem lookAheadN_outcome (ps : List Sem) {c : Ctx} (hc : c.status = .matched) :
    Outcome.of (lookAheadN ps c) = notOutcome c (seqO ps (enter ":base:LookAheadN" c)) := lookAheadN_of hc (seqO_spec _ _)

theorem group_outcome (ps : List Sem) (c : Ctx) :
    Outcome.of (group ps c) = (seqO ps (enter ":base:Group" c)).onMatch fun c' =>
        if c'.stack.length < c.stack.length then .panicked .index
        else .matched { c' with
          qty := 1
          stack := c'.stack.take c.stack.length ++
            [{ Ast.zero with cls := ":base:Group", ty := .listOfAst,
                             val := .list (c'.stack.drop c.stack.length) }] } := group_of (seqO_spec _ _)

theorem trans_outcome (p : Sem) (ts : List TSem) (c : Ctx) :
    Outcome.of (trans p ts c) = (Outcome.of (p (enter ":base:Trans" c))).onMatch fun d =>
      Outcome.of (applyTransforms (variadic ts) { c with cls := ":base:Trans" } { d with qty := 1 }) := by
  cases h : Outcome.of (p (enter ":base:Trans" c)) with
  | matched d => rw [trans_matched_eq h]; rfl
  | _ => exact trans_stop_of h (by simp [Outcome.onMatch])

/-! ### Indistinguishable contexts and outcomes -/

theorem Spec.Alike.rfl' (c : Ctx) : Alike [] c c := ⟨rfl, rfl, rfl, rfl, rfl, rfl⟩
theorem Spec.Alike.flip {c c' : Ctx} (h : Alike [] c c') : Alike [] c' c :=
  ⟨h.str.symm, h.slice.symm, h.pos.symm, h.len.symm, h.status.symm, by simpa using h.stack.symm⟩
theorem Spec.Alike.chain {c d e : Ctx} (h : Alike [] c d) (h' : Alike [] d e) : Alike [] c e :=
  ⟨h'.str.trans h.str, h'.slice.trans h.slice, h'.pos.trans h.pos, h'.len.trans h.len, h'.status.trans h.status,
    by have := h.stack; have := h'.stack; simp_all⟩
theorem Spec.Alike.enter {c c' : Ctx} (h : Alike [] c c') (s s' : String) : Alike [] (enter s c) (Spec.enter s' c') := (h.setCls s s').setStatus _
theorem Spec.Alike.enterL {c c' : Ctx} (h : Alike [] c c') (s : String) (hc : c.status = .matched) : Alike [] (Spec.enter s c) c' :=
  ⟨h.str, h.slice, h.pos, h.len, h.status.trans hc, h.stack⟩
theorem Spec.Alike.enterR {c c' : Ctx} (h : Alike [] c c') (s : String) (hc : c.status = .matched) : Alike [] c (Spec.enter s c') :=
  ⟨h.str, h.slice, h.pos, h.len, hc.symm, h.stack⟩

theorem Spec.SameOut.refl (r : Outcome) : SameOut r r := by
  cases r with
  | matched c => exact .matched (.rfl' c)
  | unmatched => exact .unmatched
  | failed => exact .failed rfl
  | panicked => exact .panicked
  | timedOut => exact .timedOut

theorem Spec.SameOut.symm {r s : Outcome} (h : SameOut r s) : SameOut s r := by
  cases h with
  | matched h => exact .matched h.flip
  | unmatched => exact .unmatched
  | failed h => exact .failed h.symm
  | panicked => exact .panicked
  | timedOut => exact .timedOut

theorem Spec.SameOut.trans {r s t : Outcome} (h : SameOut r s) (h' : SameOut s t) : SameOut r t := by
  cases h with
  | matched h => cases h' with | matched h' => exact .matched (h.chain h')
  | unmatched => cases h'; exact .unmatched
  | failed h => cases h' with | failed h' => exact .failed (h'.trans h)
  | panicked => cases h'; exact .panicked
  | timedOut => cases h'; exact .timedOut

theorem OutcomeR.same {r s : Outcome} (h : OutcomeR [] r s) : SameOut r s := by
  cases h with
  | matched h => exact .matched h
  | unmatched => exact .unmatched
  | failed h => exact .failed h.pos
  | panicked => exact .panicked
  | timedOut => exact .timedOut

theorem Spec.SameOut.onMatch {r s : Outcome} (h : SameOut r s) {f g : Ctx → Outcome}
    (hf : ∀ c c', r = .matched c → Alike [] c c' → SameOut (f c) (g c')) : SameOut (r.onMatch f) (s.onMatch g) := by
  cases h with
  | matched h => exact hf _ _ rfl h
  | unmatched => exact .unmatched
  | failed h => exact .failed h
  | panicked => exact .panicked
  | timedOut => exact .timedOut

/-- Changing the quantity is invisible. -/
theorem Spec.SameOut.qty {r s : Outcome} (h : SameOut r s) (k : Nat) : SameOut (r.onMatch fun d => .matched { d with qty := k }) s := by
  cases h with
  | matched h => exact .matched ⟨h.str, h.slice, h.pos, h.len, h.status, h.stack⟩
  | unmatched => exact .unmatched
  | failed h => exact .failed h
  | panicked => exact .panicked
  | timedOut => exact .timedOut

theorem Spec.SameOut.orElse {r r' s s' : Outcome} (h : SameOut r r') (h' : SameOut s s') : SameOut (r.orElse s) (r'.orElse s') := by
  cases h with
  | matched h => exact .matched h
  | unmatched => exact h'
  | failed h => exact .failed h
  | panicked => exact .panicked
  | timedOut => exact .timedOut

/-! ### Indistinguishable parsers -/

/-- Two parsers that end alike from contexts that are alike. -/
def SameP (p q : Sem) : Prop := ∀ c c', Alike [] c c' → c.status = .matched → SameOut (Outcome.of (p c)) (Outcome.of (q c'))

theorem SameP.of_local {p : Sem} (h : Local [] p) : SameP p p := fun c c' ha _ => (outcome_local (h c c' ha)).same
theorem SameP.symm {p q : Sem} (h : SameP p q) : SameP q p := fun c c' ha hc => (h c' c ha.flip (ha.status.trans hc)).symm
theorem SameP.trans {p q r : Sem} (h : SameP p q) (h' : SameP q r) : SameP p r :=
  fun c c' ha hc => (h c c (.rfl' c) hc).trans (h' c c' ha hc)

/-- Lists of such parsers. -/
inductive SameL : List Sem → List Sem → Prop where
  | nil : SameL [] []
  | cons {p q : Sem} {ps qs : List Sem} : SameP p q → SameL ps qs → SameL (p :: ps) (q :: qs)

theorem SameL.of_local {ps : List Sem} (h : ∀ p ∈ ps, Local [] p) : SameL ps ps := by
  induction ps with
  | nil => exact .nil
  | cons p ps ih => exact .cons (.of_local (h p (.head _))) (ih fun q hq => h q (.tail _ hq))

theorem SameL.append {ps ps' qs qs' : List Sem} (h : SameL ps ps') (h' : SameL qs qs') : SameL (ps ++ qs) (ps' ++ qs') := by
  induction h with
  | nil => exact h'
  | cons hp _ ih => exact .cons hp ih

theorem SameL.ne {ps qs : List Sem} (h : SameL ps qs) : ps ≠ [] ↔ qs ≠ [] := by cases h <;> simp

theorem seqO_same {ps qs : List Sem} (h : SameL ps qs) {c c' : Ctx} (ha : Alike [] c c') (hc : c.status = .matched) : SameOut (seqO ps c) (seqO qs c') := by
  induction h generalizing c c' with
  | nil => exact .matched ha
  | cons hp _ ih => exact (hp c c' ha hc).onMatch fun d d' hd had => ih had (Outcome.of_matched_status hd)

theorem choiceO_same {ps qs : List Sem} (h : SameL ps qs) {c c' : Ctx} (ha : Alike [] c c') (hc : c.status = .matched) :
    SameOut (choiceO ps c) (choiceO qs c') := by
  induction h with
  | nil => exact .unmatched
  | cons hp _ ih => exact (hp c c' ha hc).orElse ih

theorem repEnd_same {t t' : Times} {k k' : Nat} (hk : t.min ≤ k ↔ t'.min ≤ k') {c c' : Ctx} (ha : Alike [] c c') : SameOut (repEnd t k c) (repEnd t' k' c') := by
  unfold repEnd
  by_cases h : t.min ≤ k
  · rw [if_pos h, if_pos (hk.1 h)]; exact .matched (ha.setQty _ _)
  · rw [if_neg h, if_neg (fun h' => h (hk.2 h'))]; exact .unmatched

theorem loopO_same {t t' : Times} (ht : t.max < 0 ↔ t'.max < 0) {ps qs : List Sem} (h : SameL ps qs) : ∀ (m k k' : Nat), (∀ j : Nat, t.min ≤ (k + j : Nat) ↔ t'.min ≤ (k' + j : Nat)) →
    ∀ {c c' : Ctx}, Alike [] c c' → c.status = .matched → SameOut (loopO t ps m k c) (loopO t' qs m k' c')
  | 0, k, k', hk, c, c', ha, hc => by
    unfold loopO
    by_cases h0 : t.max < 0
    · rw [if_pos h0, if_pos (ht.1 h0)]; exact .timedOut
    · rw [if_neg h0, if_neg (fun h' => h0 (ht.2 h'))]; exact repEnd_same (hk 0) ha
  | m + 1, k, k', hk, c, c', ha, hc => by
    unfold loopO
    have h1 := seqO_same h ha hc
    cases h2 : seqO ps c with
    | matched d =>
      rw [h2] at h1
      generalize seqO qs c' = x at h1
      cases h1 with
      | matched h1 =>
        exact loopO_same ht h m (k + 1) (k' + 1) (fun j => by have := hk (j + 1); rw [show k + 1 + j = k + (j + 1) by omega, show k' + 1 + j = k' + (j + 1) by omega]; exact this)
          (h1.setQty _ _) (show d.status = _ from seqO_status hc h2)
    | unmatched =>
      rw [h2] at h1
      generalize seqO qs c' = x at h1
      cases h1
      exact repEnd_same (hk 0) ha
    | failed d e =>
      rw [h2] at h1
      generalize seqO qs c' = x at h1
      cases h1 with
      | failed h1 => exact .failed h1
    | panicked p =>
      rw [h2] at h1
      generalize seqO qs c' = x at h1
      cases h1
      exact .panicked
    | timedOut =>
      rw [h2] at h1
      generalize seqO qs c' = x at h1
      cases h1
      exact .timedOut

theorem flatGroup_same {ps qs : List Sem} (h : SameL ps qs) : SameP (flatGroup ps) (flatGroup qs) := by
  intro c c' ha hc
  rw [flatGroup_outcome, flatGroup_outcome]
  exact (seqO_same h (ha.enter _ _) rfl).onMatch fun d d' _ hd => .matched (hd.setQty _ _)

theorem group_same {ps qs : List Sem} (h : SameL ps qs) : SameP (group ps) (group qs) := by
  intro c c' ha hc
  rw [group_outcome, group_outcome]
  refine (seqO_same h (ha.enter _ _) rfl).onMatch fun d d' _ hd => ?_
  have h1 : c'.stack = c.stack := ha.stack
  have h2 : d'.stack = d.stack := hd.stack
  rw [h1, h2]
  split
  · exact .panicked
  · exact .matched ⟨hd.str, hd.slice, hd.pos, hd.len, hd.status, rfl⟩

theorem first_same {ps qs : List Sem} (h : SameL ps qs) : SameP (first ps) (first qs) := by
  intro c c' ha hc
  by_cases hps : ps = []
  · subst hps
    cases h
    exact .matched ((ha.enter _ _).setQty _ _)
  · rw [first_outcome hps, first_outcome (h.ne.1 hps)]
    exact (choiceO_same h (ha.enter _ _) rfl).onMatch fun d d' _ hd => .matched (hd.setQty _ _)

theorem lookAhead_same {ps qs : List Sem} (h : SameL ps qs) : SameP (lookAhead ps) (lookAhead qs) := by
  intro c c' ha hc
  rw [lookAhead_outcome _ hc, lookAhead_outcome _ (ha.status.trans hc)]
  exact (seqO_same h (ha.enter _ _) rfl).onMatch fun d d' _ hd => .matched (ha.setCls _ _)

theorem not_same {r s : Outcome} (h : SameOut r s) {c c' : Ctx} (ha : Alike [] c c') : SameOut (notOutcome c r) (notOutcome c' s) := by
  cases h with
  | matched h => exact .unmatched
  | unmatched => exact .matched (ha.setCls _ _)
  | failed h => exact .failed h
  | panicked => exact .panicked
  | timedOut => exact .timedOut

theorem lookAheadN_same {ps qs : List Sem} (h : SameL ps qs) : SameP (lookAheadN ps) (lookAheadN qs) := by
  intro c c' ha hc
  rw [lookAheadN_outcome _ hc, lookAheadN_outcome _ (ha.status.trans hc)]
  exact not_same (seqO_same h (ha.enter _ _) rfl) ha

theorem notFound_same {r s : Outcome} (h : SameOut r s) : NotFound r ↔ NotFound s := by
  cases h with
  | failed h => rename_i e; cases e <;> exact Iff.rfl
  | _ => exact Iff.rfl

theorem Spec.Alike.back {c c' : Ctx} (h : Alike [] c c') (s s' : String) (i : Int) : Alike [] (back s c i) (Spec.back s' c' i) := by
  unfold Spec.back
  rw [h.pos]
  exact (h.setPos _).enter _ _

theorem lookBehind_same (neg : Bool) (a b : Int) {ps qs : List Sem} (h : SameL ps qs) : SameP (lookBehindBase neg a b ps) (lookBehindBase neg a b qs) := by
  intro c c' ha hc
  have hc' := ha.status.trans hc
  have hq : ∀ j, SameOut (seqO ps (back (behindCls neg) c j)) (seqO qs (back (behindCls neg) c' j)) := fun j => seqO_same h (ha.back _ _ j) rfl
  rcases lookBehind_cases (behindCls neg) ps c a (b - a + 1).toNat with h1 | ⟨i, r, h1, h2, h3, h4, h5, h6⟩
  · rw [lookBehind_none_of (ps := ps) hc neg, lookBehind_none_of (ps := qs) hc' neg]
    · cases neg
      · exact .unmatched
      · exact .matched ha
    · intro j hj1 hj2 hj3
      obtain ⟨r, hr, hg⟩ := h1 j hj1 (by omega) (by rw [← ha.pos]; exact hj3)
      have := (seqO_spec ps (back (behindCls neg) c j)).det hr
      exact ⟨_, seqO_spec _ _, (notFound_same (hq j)).1 (this ▸ notFound_iff.2 hg)⟩
    · intro j hj1 hj2 hj3
      obtain ⟨r, hr, hg⟩ := h1 j hj1 (by omega) hj3
      exact ⟨r, hr, notFound_iff.2 hg⟩
  · have hr : seqO ps (back (behindCls neg) c i) = r := (seqO_spec _ _).det h4
    have hq' := hq i
    rw [hr] at hq'
    rw [lookBehind_of (r := r) hc h1 (by omega) h3 neg h4 (fun hn => h5 (notFound_iff.1 hn)),
      lookBehind_of hc' h1 (by omega) (by rw [ha.pos]; exact h3) neg (seqO_spec qs (back (behindCls neg) c' i))
        (fun hn => h5 (notFound_iff.1 ((notFound_same hq').2 hn)))]
    · refine hq'.onMatch fun d d' _ _ => ?_
      cases neg
      · exact .matched ha
      · exact .unmatched
    · intro j hj1 hj2 hj3
      obtain ⟨r, hr, hg⟩ := h6 j hj1 hj2 (by rw [← ha.pos]; exact hj3)
      have := (seqO_spec ps (back (behindCls neg) c j)).det hr
      exact ⟨_, seqO_spec _ _, (notFound_same (hq j)).1 (this ▸ notFound_iff.2 hg)⟩
    · intro j hj1 hj2 hj3
      obtain ⟨r, hr, hg⟩ := h6 j hj1 hj2 hj3
      exact ⟨r, hr, notFound_iff.2 hg⟩

theorem repeat_same (fuel : Nat) (t : Times) {ps qs : List Sem} (h : SameL ps qs) : SameP (repeatP fuel t ps) (repeatP fuel t qs) := by
  intro c c' ha hc
  rw [repeat_outcome, repeat_outcome]
  exact loopO_same Iff.rfl h _ _ _ (fun _ => Iff.rfl) (ha.enter _ _) rfl

theorem trans_same {ts : List TSem} (ht : ∀ t ∈ ts, LocalT t) {p q : Sem} (h : SameP p q) : SameP (trans p ts) (trans q ts) := by
  intro c c' ha hc
  rw [trans_outcome, trans_outcome]
  refine (h _ _ (ha.enter _ _) rfl).onMatch fun d d' _ hd => ?_
  refine (outcome_local (applyTransforms_local (fun us hu t htm => ?_) (ha.setCls _ _) (hd.setQty _ _))).same
  unfold variadic at hu
  split at hu
  · cases hu
  · cases hu; exact fun c c' asts ha => ht t htm [] c c' asts ha

theorem of_timedOut {x : Out PRes} : Outcome.of x = .timedOut ↔ x = .timeout := by
  refine ⟨fun h => ?_, fun h => by rw [h]; rfl⟩
  cases x with
  | timeout => rfl
  | panic p => simp [Outcome.of] at h
  | ok r =>
    obtain ⟨c, e⟩ := r
    cases e with
    | some e => simp [Outcome.of] at h
    | none => simp only [Outcome.of] at h; split at h <;> cases h

theorem Spec.SameOut.timeout_iff {x y : Out PRes} (h : SameOut (Outcome.of x) (Outcome.of y)) : x = .timeout ↔ y = .timeout := by
  rw [← of_timedOut, ← of_timedOut]
  constructor
  · intro hx; rw [hx] at h; generalize Outcome.of y = z at h ⊢; cases h; rfl
  · intro hx; rw [hx] at h; generalize Outcome.of x = z at h ⊢; cases h; rfl

/-- A repetition, from what its loop does with any fuel. -/
theorem den_repeat_same {env : Env} {t : Times} {gs : List Gram} {c : Ctx} {q : Nat → Out PRes} {x : Out PRes}
    (hq : ∀ fuel, SameOut (Outcome.of (repeatP (fuel + 1) t (gs.map (den env)) c)) (Outcome.of (q fuel)))
    (hx : (∀ fuel, q fuel = .timeout) → x = .timeout) (hx' : ∀ fuel, q fuel ≠ .timeout → x = q fuel) :
    SameOut (Outcome.of (den env (.repeat t gs) c)) (Outcome.of x) := by
  by_cases h : ∃ fuel, q fuel ≠ .timeout
  · obtain ⟨fuel, h⟩ := h
    rw [hx' fuel h, den_repeat_of env t gs c (fuel + 1) fun hr => h ((hq fuel).timeout_iff.1 hr)]
    exact hq fuel
  · have h' : ∀ fuel, q fuel = .timeout := fun fuel => Classical.byContradiction fun hn => h ⟨fuel, hn⟩
    have h2 : ∀ fuel, repeatP (fuel + 1) t (gs.map (den env)) c = .timeout := fun fuel => (hq fuel).timeout_iff.2 (h' fuel)
    rw [hx h', den_repeat_diverges env t gs c fun fuel => ?_]
    · exact .timedOut
    · have h3 : (repeatP fuel t (gs.map (den env)) c).le (repeatP (fuel + 1) t (gs.map (den env)) c) :=
        baseParser_le (by omega) (LeL.refl (fun _ _ => .refl _) _) .none c
      rw [h2 fuel] at h3
      rcases h3 with h3 | h3 <;> exact h3

theorem den_repeat_congr {env : Env} {t : Times} {gs hs : List Gram} (h : SameL (gs.map (den env)) (hs.map (den env))) :
    SameP (den env (.repeat t gs)) (den env (.repeat t hs)) := by
  intro c c' ha hc
  refine den_repeat_same (q := fun fuel => repeatP (fuel + 1) t (hs.map (den env)) c') (fun fuel => repeat_same _ _ h c c' ha hc)
    (fun hq => den_repeat_diverges env t hs c' fun fuel => ?_) (fun fuel hf => den_repeat_of env t hs c' _ hf)
  have h3 : (repeatP fuel t (hs.map (den env)) c').le (repeatP (fuel + 1) t (hs.map (den env)) c') :=
    baseParser_le (by omega) (LeL.refl (fun _ _ => .refl _) _) .none c'
  rw [show repeatP (fuel + 1) t (hs.map (den env)) c' = .timeout from hq fuel] at h3
  rcases h3 with h3 | h3 <;> exact h3

theorem iterLimit_dec {t : Times} (h : t.max ≠ 0) (fuel : Nat) : iterLimit (fuel + 1) t = iterLimit fuel (decTimes t) + 1 := by
  unfold iterLimit decTimes
  by_cases h0 : t.max < 0
  · simp [h0]
  · simp only [h0, if_false]
    rw [if_neg (by omega)]
    omega

theorem dec_max {t : Times} (h : t.max ≠ 0) : t.max < 0 ↔ (decTimes t).max < 0 := by
  unfold decTimes
  simp only
  split <;> omega

/-- A repetition goes on after its first match as a shorter one. -/
theorem den_repeat_next {env : Env} {t : Times} (ht : t.max ≠ 0) {gs : List Gram} (hgs : SameL (gs.map (den env)) (gs.map (den env))) {c d d' : Ctx}
    (h : seqO (gs.map (den env)) (enter ":base:Repeat" c) = .matched d) (hd : Alike [] d d') :
    SameOut (Outcome.of (den env (.repeat t gs) c)) (Outcome.of (den env (.repeat (decTimes t) gs) d')) := by
  refine den_repeat_same (q := fun fuel => repeatP fuel (decTimes t) (gs.map (den env)) d') (fun fuel => ?_)
    (den_repeat_diverges env _ gs d') (fun fuel hf => den_repeat_of env _ gs d' fuel hf)
  rw [repeat_outcome, repeat_outcome, iterLimit_dec ht, loopO, h]
  have hs : d.status = .matched := seqO_status rfl h
  exact loopO_same (dec_max ht) hgs _ _ _ (fun j => by unfold decTimes; simp only; split <;> omega) ((hd.setQty 0 d'.qty).enterR _ hs) hs

/-- A repetition that does not match even once. -/
theorem den_repeat_stop {env : Env} {t : Times} (ht : t.max ≠ 0) {gs : List Gram} {c : Ctx} {x : Out PRes}
    (h : SameOut (match seqO (gs.map (den env)) (enter ":base:Repeat" c) with
      | .unmatched => repEnd t 0 (enter ":base:Repeat" c)
      | r => r) (Outcome.of x)) (hm : ∀ d, seqO (gs.map (den env)) (enter ":base:Repeat" c) ≠ .matched d) :
    SameOut (Outcome.of (den env (.repeat t gs) c)) (Outcome.of x) := by
  refine den_repeat_same (q := fun _ => x) (fun fuel => ?_) (fun hq => hq 0) (fun _ _ => rfl)
  rw [repeat_outcome, iterLimit_dec ht, loopO]
  cases h2 : seqO (gs.map (den env)) (enter ":base:Repeat" c) with
  | matched d => exact absurd h2 (hm d)
  | _ => rw [h2] at h; exact h

/-- A repetition that need not match is never unmatched. -/
theorem den_repeat_ne {env : Env} {t : Times} (ht : t.min ≤ 0) {gs : List Gram} {c : Ctx} : Outcome.of (den env (.repeat t gs) c) ≠ .unmatched := by
  have h1 : ∀ m k c, loopO t (gs.map (den env)) m k c ≠ .unmatched := by
    intro m
    induction m with
    | zero => intro k c; unfold loopO repEnd; split <;> simp; omega
    | succ m ih =>
      intro k c
      unfold loopO
      split
      · exact ih _ _
      · unfold repEnd; rw [if_pos (by omega)]; simp
      · assumption
  by_cases h : ∃ fuel, repeatP fuel t (gs.map (den env)) c ≠ .timeout
  · obtain ⟨fuel, h⟩ := h
    rw [den_repeat_of env t gs c fuel h, repeat_outcome]
    exact h1 _ _ _
  · rw [den_repeat_diverges env t gs c fun fuel => Classical.byContradiction fun hn => h ⟨fuel, hn⟩]
    simp [Outcome.of]

theorem applyTrs_append (ctx : Ctx) (ts us : List TSem) (l : List Ast) :
    applyTrs ctx (ts ++ us) l = (applyTrs ctx ts l).bind fun r => match r with
      | (l', none) => applyTrs ctx us l'
      | r => .ok r := by
  induction ts generalizing l with
  | nil => rfl
  | cons t ts ih =>
    simp only [List.cons_append, applyTrs]
    cases t ctx l with
    | panic => rfl
    | timeout => rfl
    | ok r =>
      obtain ⟨l', e⟩ := r
      cases e with
      | none => exact ih l'
      | some e => rfl

/-- Transforming twice. -/
theorem applyTransforms_append (ctx d : Ctx) (ts us : List TSem) (hd : d.status = .matched) :
    SameOut ((Outcome.of (applyTransforms (variadic ts) ctx d)).onMatch fun d' => Outcome.of (applyTransforms (variadic us) ctx { d' with qty := 1 }))
      (Outcome.of (applyTransforms (variadic (ts ++ us)) ctx { d with qty := 1 })) := by
  cases ts with
  | nil =>
    rw [List.nil_append, show variadic ([] : List TSem) = none from rfl]
    simp only [applyTransforms, Outcome.of, hd, Outcome.onMatch]
    exact .refl _
  | cons t ts =>
    rw [show variadic (t :: ts) = some (t :: ts) from rfl, show variadic (t :: ts ++ us) = some (t :: ts ++ us) from rfl]
    rw [applyTransforms.eq_def (some (t :: ts)), applyTransforms.eq_def (some (t :: ts ++ us))]
    simp only [applyTrs_append]
    by_cases hl : d.stack.length < ctx.stack.length
    · simp only [if_pos hl]; exact .panicked
    simp only [if_neg hl]
    generalize t :: ts = ts'
    cases applyTrs ctx ts' (d.stack.drop ctx.stack.length) with
    | panic => exact .panicked
    | timeout => exact .timedOut
    | ok r =>
      obtain ⟨l, e⟩ := r
      cases e with
      | some e => exact .failed rfl
      | none =>
        have h1 : (d.stack.take ctx.stack.length).length = ctx.stack.length := by rw [List.length_take]; omega
        simp only [Outcome.of, hd, Outcome.onMatch, Out.bind]
        cases us with
        | nil => simp only [variadic, List.isEmpty_nil, if_true, applyTransforms, applyTrs]; exact .refl _
        | cons u us =>
          simp only [variadic, List.isEmpty_cons, applyTransforms, Bool.false_eq_true, if_false, List.length_append, h1]
          rw [if_neg (by omega)]
          have h2 : (d.stack.take ctx.stack.length ++ l).drop ctx.stack.length = l := by
            rw [List.drop_append_of_le_length (by omega), List.drop_of_length_le (by omega)]; rfl
          have h3 : (d.stack.take ctx.stack.length ++ l).take ctx.stack.length = d.stack.take ctx.stack.length := by
            rw [List.take_append_of_le_length (by omega), List.take_of_length_le (by omega)]
          rw [h2, h3]
          cases applyTrs ctx (u :: us) l with
          | panic => exact .panicked
          | timeout => exact .timedOut
          | ok r =>
            obtain ⟨l, e⟩ := r
            cases e with
            | some e => exact .failed rfl
            | none => exact .refl _

/-! ### Parts of sequences and choices -/

/-- Two sequences that end alike. -/
def SameS (X Y : List Sem) : Prop := ∀ c c', Alike [] c c' → c.status = .matched → SameOut (seqO X c) (seqO Y c')

theorem seq_replace {P X Y Q : List Sem} (hP : SameL P P) (h : SameS X Y) (hQ : SameL Q Q) : SameS (P ++ (X ++ Q)) (P ++ (Y ++ Q)) := by
  intro c c' ha hc
  rw [seqO_append, seqO_append]
  refine (seqO_same hP ha hc).onMatch fun d d' hd had => ?_
  have hds := seqO_status hc hd
  rw [seqO_append, seqO_append]
  exact (h d d' had hds).onMatch fun e e' he hae => seqO_same hQ hae (seqO_status hds he)

/-- Two choices that end alike. -/
def SameC (X Y : List Sem) : Prop := ∀ c c', Alike [] c c' → c.status = .matched → SameOut (choiceO X c) (choiceO Y c')

theorem choice_replace {P X Y Q : List Sem} (hP : SameL P P) (h : SameC X Y) (hQ : SameL Q Q) : SameC (P ++ (X ++ Q)) (P ++ (Y ++ Q)) := by
  intro c c' ha hc
  rw [choiceO_append, choiceO_append, choiceO_append, choiceO_append]
  exact (choiceO_same hP ha hc).orElse ((h c c' ha hc).orElse (choiceO_same hQ ha hc))

theorem flatGroup_seq {X Y : List Sem} (h : SameS X Y) {c c' : Ctx} (ha : Alike [] c c') (hc : c.status = .matched) :
    SameOut (Outcome.of (flatGroup X c)) (seqO Y c') := by
  rw [flatGroup_outcome]
  exact (h _ _ (ha.enterL _ hc) rfl).qty 1

theorem flatGroup_of_seq {X Y : List Sem} (h : SameS X Y) : SameP (flatGroup X) (flatGroup Y) := by
  intro c c' ha hc
  rw [flatGroup_outcome Y]
  rw [flatGroup_outcome X]
  exact (h _ _ (ha.enter _ _) rfl).onMatch fun d d' _ hd => .matched (hd.setQty _ _)

theorem first_choice {X Y : List Sem} (hX : X ≠ []) (h : SameC X Y) {c c' : Ctx} (ha : Alike [] c c') (hc : c.status = .matched) :
    SameOut (Outcome.of (first X c)) (choiceO Y c') := by
  rw [first_outcome hX]
  exact (h _ _ (ha.enterL _ hc) rfl).qty 1

theorem first_of_choice {X Y : List Sem} (hX : X ≠ []) (hY : Y ≠ []) (h : SameC X Y) : SameP (first X) (first Y) := by
  intro c c' ha hc
  rw [first_outcome hX, first_outcome hY]
  exact (h _ _ (ha.enter _ _) rfl).onMatch fun d d' _ hd => .matched (hd.setQty _ _)

theorem onMatch_matched (r : Outcome) : r.onMatch .matched = r := by cases r <;> rfl
theorem seqO_one (p : Sem) (c : Ctx) : seqO [p] c = Outcome.of (p c) := onMatch_matched _
theorem orElse_unmatched (r : Outcome) : r.orElse .unmatched = r := by cases r <;> rfl
theorem choiceO_one (p : Sem) (c : Ctx) : choiceO [p] c = Outcome.of (p c) := orElse_unmatched _

theorem SameS.refl {X : List Sem} (h : SameL X X) : SameS X X := fun _ _ => seqO_same h
theorem SameC.refl {X : List Sem} (h : SameL X X) : SameC X X := fun _ _ => choiceO_same h

theorem sameS_flatGroup {X : List Sem} (h : SameL X X) : SameS [flatGroup X] X := by
  intro c c' ha hc
  rw [seqO_one]
  exact flatGroup_seq (.refl h) ha hc

theorem sameC_first {X : List Sem} (hX : X ≠ []) (h : SameL X X) : SameC [first X] X := by
  intro c c' ha hc
  rw [choiceO_one]
  exact first_choice hX (.refl h) ha hc

theorem sameS_lookAhead {X : List Sem} (h : SameL X X) : SameS (lookAhead X :: X) X := by
  intro c c' ha hc
  rw [show seqO (lookAhead X :: X) c = (Outcome.of (lookAhead X c)).onMatch (seqO X) from rfl, lookAhead_outcome _ hc]
  have h1 := seqO_same h (ha.enterL ":base:LookAhead" hc) rfl
  cases h2 : seqO X (enter ":base:LookAhead" c) with
  | matched d => exact seqO_same h (ha.setCls ":base:LookAhead" c'.cls) hc
  | _ => rw [h2] at h1; exact h1

end Takenoco
