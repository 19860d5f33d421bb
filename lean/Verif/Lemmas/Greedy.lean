import Verif.Props.Algebra
/-
Where a repetition without an upper bound stops, and what a sequence that is refused says about longer ones.
-/
namespace Takenoco
open Spec

/-- A repetition without an upper bound that matches has stopped where its parsers are refused. -/
theorem loopO_stops {t : Times} (ht : t.max < 0) {ps : List Sem} : ∀ (m k : Nat) (c o : Ctx), c.status = .matched → loopO t ps m k c = .matched o →
    ∃ d, Alike [] d o ∧ d.status = .matched ∧ seqO ps d = .unmatched := by
  intro m
  induction m with
  | zero => intro k c o _ h; rw [loopO, if_pos ht] at h; cases h
  | succ m ih =>
    intro k c o hc h
    unfold loopO at h
    cases hs : seqO ps c with
    | matched d => rw [hs] at h; exact ih (k + 1) { d with qty := k } o (show d.status = .matched from seqO_status hc hs) h
    | unmatched =>
      rw [hs] at h
      refine ⟨c, ?_, hc, hs⟩
      simp only [repEnd] at h
      split at h
      · cases h; exact (Spec.Alike.rfl' c).setQty c.qty k
      · cases h
    | failed d e => rw [hs] at h; cases h
    | panicked p => rw [hs] at h; cases h
    | timedOut => rw [hs] at h; cases h

theorem den_repeat_stops {env : Env} {t : Times} (ht : t.max < 0) {gs : List Gram} (hgs : SameL (gs.map (den env)) (gs.map (den env))) {c o : Ctx}
    (h : Outcome.of (den env (.repeat t gs) c) = .matched o) {o' : Ctx} (ho : Alike [] o o') : seqO (gs.map (den env)) o' = .unmatched := by
  by_cases hf : ∃ fuel, repeatP fuel t (gs.map (den env)) c ≠ .timeout
  · obtain ⟨fuel, hf⟩ := hf
    rw [den_repeat_of env t gs c fuel hf, repeat_outcome] at h
    obtain ⟨d, h1, h2, h3⟩ := loopO_stops ht _ _ _ _ rfl h
    have h4 := seqO_same hgs (h1.chain ho) h2
    rw [h3] at h4
    generalize seqO (gs.map (den env)) o' = r at h4
    cases h4
    rfl
  · rw [den_repeat_diverges env t gs c fun fuel => Classical.byContradiction fun hn => hf ⟨fuel, hn⟩] at h
    cases h

/-- A prefix that is refused. -/
theorem seqO_prefix {ps : List Sem} {c : Ctx} (h : seqO ps c = .unmatched) (qs : List Sem) : seqO (ps ++ qs) c = .unmatched := by
  rw [seqO_append, h]; rfl

theorem onMatch_unmatched {r : Outcome} {f : Ctx → Ctx} (h : (r.onMatch fun d => .matched (f d)) = .unmatched) : r = .unmatched := by
  cases r with
  | unmatched => rfl
  | _ => cases h

/-- An alternative that is refused whenever an earlier one is. -/
theorem choiceO_dead {p q : Sem} {c : Ctx} (h : Outcome.of (p c) = .unmatched → Outcome.of (q c) = .unmatched) (pre mid post : List Sem) :
    choiceO (pre ++ p :: mid ++ q :: post) c = choiceO (pre ++ p :: mid ++ post) c := by
  simp only [List.append_assoc, List.cons_append, choiceO_append, choiceO]
  cases hp : Outcome.of (p c) with
  | unmatched => rw [h hp]; rfl
  | _ => rfl

theorem hasPrefixAt_prefix {s t : Bytes} {c : Ctx} (h1 : hasPrefixAt s c = false) : hasPrefixAt (s ++ t) c = false := by
  cases hh : hasPrefixAt (s ++ t) c with
  | false => rfl
  | true =>
    unfold hasPrefixAt at h1 hh
    simp only [List.length_append, Bool.and_eq_true, decide_eq_true_eq, beq_iff_eq] at hh
    obtain ⟨ha, hb⟩ := hh
    have h3 : (c.str.drop c.pos).take s.length = s := by
      have := congrArg (List.take s.length) hb
      rw [List.take_take, Nat.min_eq_left (by omega), List.take_left'] at this
      · exact this
      · rfl
    rw [h3] at h1
    simp at h1
    omega

theorem seqS_prefix {s : Bytes} {c : Ctx} (h : Outcome.of (seqS s c) = .unmatched) (t : Bytes) : Outcome.of (seqS (s ++ t) c) = .unmatched := by
  have h1 : hasPrefixAt s c = false := by
    cases hh : hasPrefixAt s c with
    | false => rfl
    | true => rw [seqS_eq, if_pos hh] at h; cases h
  rw [seqS_eq, if_neg (by simp [hasPrefixAt_prefix h1])]
  rfl

end Takenoco
