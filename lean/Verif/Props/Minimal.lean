import Verif.Lemmas.Minimal
import Verif.Props.FormulaTotal
import Verif.Props.FormulaBlame
/-
Property C76: the minimal parser of the introduction.
-/
namespace Takenoco
open Spec

/-- **C76.** Nonempty texts of letters are returned. -/
theorem C76_words (s : Bytes) (hne : s ≠ []) (hw : ∀ b ∈ s, isLetter b = true) : ∃ N, ∀ n, N ≤ n → Minimal.parse n s = .ok (.value s) := by
  obtain ⟨c', h1, h2⟩ := minimal_hits hne hw (newStrCtx s) (by simpa using newStrCtx_at s)
  obtain ⟨l, h3, a, rfl, h4⟩ := h2.stack
  obtain ⟨N, hN⟩ := run_of_den (outcome_matched h1) (by simp)
  refine ⟨N, fun n hn => ?_⟩
  have : run noEnv n Minimal.program (newStrCtx s) = _ := hN n hn
  have h6 : c'.stack = [a] := by rw [h3]; rfl
  simp [Minimal.parse, this, Minimal.finish, h2.at_.ok, h6, goGet, h4, asStr]

/-- **C76.** For all other texts there is an error without a cause, at line 1, column 1. -/
theorem C76_others (s : Bytes) (h : ¬ (s ≠ [] ∧ ∀ b ∈ s, isLetter b = true)) :
    ∃ N p, (∀ n, N ≤ n → Minimal.parse n s = .ok (.failed none p)) ∧ p.line = 1 ∧ p.col = 1 ∧ p.position = 0 := by
  have h1 := minimal_misses h (newStrCtx s) (newStrCtx_at s)
  obtain ⟨o, h2, h3⟩ : ∃ o, den noEnv Minimal.program (newStrCtx s) = .ok (o, none) ∧ o.status = .unmatched := by
    cases hd : den noEnv Minimal.program (newStrCtx s) with
    | ok oe =>
      obtain ⟨o, e⟩ := oe
      rw [hd] at h1
      cases e with
      | some e => cases h1
      | none =>
        refine ⟨o, rfl, ?_⟩
        cases hs : o.status <;> simp [Outcome.of, hs] at h1 ⊢
    | panic x => rw [hd] at h1; cases h1
    | timeout => rw [hd] at h1; cases h1
  have h4 : o.pos = 0 := flat_stays _ _ h2 h3
  obtain ⟨p, hp⟩ := getLineAndCol_ok (src := s) (pos := 0) (t := 4) (Nat.zero_le _) (by omega)
  obtain ⟨N, hN⟩ := run_of_den h2 (by simp)
  obtain ⟨_, h5, h6⟩ := position_of hp
  refine ⟨N, p, fun n hn => ?_, (h6 rfl).1, (h6 rfl).2, h5⟩
  have : run noEnv n Minimal.program (newStrCtx s) = _ := hN n hn
  simp [Minimal.parse, this, Minimal.finish, h3, h4, hp]

/-- `foobar`. -/
example : ∃ N, ∀ n, N ≤ n → Minimal.parse n (b! "foobar") = .ok (.value (b! "foobar")) := C76_words _ (by decide) (by decide)
/-- `foobar1`, the question of the introduction. -/
example : ∃ N p, (∀ n, N ≤ n → Minimal.parse n (b! "foobar1") = .ok (.failed none p)) ∧ p.line = 1 ∧ p.col = 1 ∧ p.position = 0 :=
  C76_others _ (by decide)

#print axioms C76_words
#print axioms C76_others

end Takenoco
