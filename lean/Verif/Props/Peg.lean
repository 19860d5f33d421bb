import Verif.Lemmas.FordTools
import Verif.Props.Denotation
/-
Property C74: grammars over characters are parsing expression grammars.
-/
namespace Takenoco
open Spec

section
variable {A : Ast → Prop} {env : Env} {rules : Nat → Peg} {g : Gram} {e : Peg} {c : Ctx} {t : List Char}

/-- **C74.** A completed run of a grammar ends as the parsing expression does that it spells: it matches and leaves the same rest of
the text, or it does not match. It neither fails nor panics. -/
theorem C74_engine_to_peg (hA : Tokens A) (henv : ∀ i, Means A (.gram (env i)) (rules i)) (hg : Means A (.gram g) e) (hc : Startable c)
    (ht : Reads (ahead c) t) (n : Nat) (h : run env n g c ≠ .timeout) :
    ∃ o, Ford rules e t o ∧ Agrees A c t (Outcome.of (run env n g c)) o :=
  parses_ford hA henv (C12_engine_to_spec env (fun i => means_plain (henv i)) g (means_plain hg) c hc.2 n h) e t hg hc.1 hc.2 ht

/-- **C74.** If the parsing expression has a result on the text, so does the grammar, from some fuel on. -/
theorem C74_peg_to_engine (hA : Tokens A) (henv : ∀ i, Means A (.gram (env i)) (rules i)) (hg : Means A (.gram g) e) (hc : Startable c)
    (ht : Reads (ahead c) t) (o : Option (List Char)) (h : Ford rules e t o) :
    ∃ N, ∀ n, N ≤ n → Agrees A c t (Outcome.of (run env n g c)) o := by
  obtain ⟨m, hm⟩ := fordN_of h
  obtain ⟨r, h1, h2⟩ := ford_parses hA henv m hg c t o hm hc.1 hc.2 ht
  obtain ⟨N, hN⟩ := C12_spec_to_engine env g c r hc.2 h1
  exact ⟨N, fun n hn => by rw [hN n hn]; exact h2⟩

/-- **C74.** The grammar matches and stops behind the characters `u` exactly if the parsing expression consumes `u`. -/
theorem C74_matches (hA : Tokens A) (henv : ∀ i, Means A (.gram (env i)) (rules i)) (hg : Means A (.gram g) e) (hc : Startable c)
    (ht : Reads (ahead c) t) (u v : List Char) (hv : t = u ++ v) :
    Ford rules e t (some v) ↔ ∃ n c', Outcome.of (run env n g c) = .matched c' ∧ ReadOff (ahead c) u (ahead c') := by
  constructor
  · intro h
    obtain ⟨N, hN⟩ := C74_peg_to_engine hA henv hg hc ht _ h
    obtain ⟨c', h1, hw⟩ := (hN N (Nat.le_refl _)).some
    obtain ⟨u', hu, hr⟩ := hw.chars
    rw [hv] at hu
    rw [← List.append_cancel_right hu] at hr
    exact ⟨N, c', h1, hr⟩
  · rintro ⟨n, c', h1, hr⟩
    obtain ⟨o, h2, h3⟩ := C74_engine_to_peg hA henv hg hc ht n (fun h0 => by rw [h0] at h1; cases h1)
    rw [h1] at h3
    obtain ⟨v', rfl, hw⟩ := h3.matched
    obtain ⟨w, hw'⟩ := reads_total (ahead c')
    have e1 := reads_unique ht (readOff_reads hr hw')
    rw [hv] at e1
    rw [List.append_cancel_left e1, reads_unique hw' (hw.reads ht)]
    exact h2

/-- **C74.** The grammar does not match exactly if the parsing expression fails. -/
theorem C74_unmatched (hA : Tokens A) (henv : ∀ i, Means A (.gram (env i)) (rules i)) (hg : Means A (.gram g) e) (hc : Startable c)
    (ht : Reads (ahead c) t) : Ford rules e t none ↔ ∃ n, Outcome.of (run env n g c) = .unmatched := by
  constructor
  · intro h
    obtain ⟨N, hN⟩ := C74_peg_to_engine hA henv hg hc ht _ h
    exact ⟨N, (hN N (Nat.le_refl _)).none⟩
  · rintro ⟨n, h1⟩
    obtain ⟨o, h2, h3⟩ := C74_engine_to_peg hA henv hg hc ht n (fun h0 => by rw [h0] at h1; cases h1)
    rw [h1] at h3
    rw [h3.unmatched] at h2
    exact h2

/-- **C74.** The grammar runs forever exactly if the parsing expression has no result. -/
theorem C74_diverges (hA : Tokens A) (henv : ∀ i, Means A (.gram (env i)) (rules i)) (hg : Means A (.gram g) e) (hc : Startable c)
    (ht : Reads (ahead c) t) : (¬ ∃ o, Ford rules e t o) ↔ ∀ n, run env n g c = .timeout := by
  constructor
  · intro h n
    by_cases h0 : run env n g c = .timeout
    · exact h0
    · obtain ⟨o, h2, _⟩ := C74_engine_to_peg hA henv hg hc ht n h0
      exact absurd ⟨o, h2⟩ h
  · rintro h ⟨o, ho⟩
    obtain ⟨N, hN⟩ := C74_peg_to_engine hA henv hg hc ht _ ho
    have := hN N (Nat.le_refl _)
    rw [h N] at this
    exact this

end

/-- **C74**, an example: look-ahead and recursion together parse the language aⁿbⁿcⁿ, which is not context-free. -/
theorem C74_abc (s : Bytes) : (∃ n c', Outcome.of (run Abc.env n (.indirect 2) (newStrCtx s)) = .matched c') ↔ ∃ k, s = utf8s (Abc.word (k + 1)) := by
  obtain ⟨t, ht⟩ := reads_total s
  have hA : Tokens (fun _ => True) := fun _ _ _ _ => trivial
  have hno : ∀ k, '�' ∉ Abc.word k := fun k h => by simp [Abc.word] at h
  have hw : (∃ k, s = utf8s (Abc.word (k + 1))) ↔ ∃ k, t = Abc.word (k + 1) := by
    constructor
    · rintro ⟨k, hk⟩; exact ⟨k, reads_unique ht ((reads_text (hno _)).2 hk)⟩
    · rintro ⟨k, rfl⟩; exact ⟨k, (reads_text (hno _)).1 ht⟩
  rw [hw]
  rcases Abc.decides t with ⟨h1, h2⟩ | ⟨h1, h2⟩
  · refine ⟨fun _ => h1, fun _ => ?_⟩
    obtain ⟨n, c', h3, _⟩ := (C74_matches hA Abc.means .indirect (startable_new s) (t := t) (by simpa [ahead, newStrCtx] using ht) t [] (by simp)).1 h2
    exact ⟨n, c', h3⟩
  · refine ⟨fun ⟨n, c', h3⟩ => ?_, fun ⟨k, hk⟩ => absurd hk (h1 k)⟩
    obtain ⟨o, h4, h5⟩ := C74_engine_to_peg hA Abc.means (g := .indirect 2) .indirect (startable_new s) (t := t) (by simpa [ahead, newStrCtx] using ht) n
      (fun h0 => by rw [h0] at h3; cases h3)
    rw [h3] at h5
    obtain ⟨v, rfl, _⟩ := h5.matched
    cases ford_unique h2 h4

/-- Left recursion has no result. -/
example : ∀ n, run (fun _ => .flatGroup [.indirect 0]) n (.indirect 0) (newStrCtx (b! "a")) = .timeout := by
  have hm : ∀ i : Nat, Means (fun _ => True) (.gram (.flatGroup [.indirect 0])) (.seq (.var 0) .eps) := fun _ => .flatGroup (means_seq .indirect)
  refine (C74_diverges (A := fun _ => True) (rules := fun _ => .seq (.var 0) .eps) (t := ['a']) (fun _ _ _ _ => trivial) hm .indirect (startable_new _) ?_).1 ?_
  · exact (reads_text (by decide)).2 rfl
  · rintro ⟨o, ho⟩
    obtain ⟨n, hn⟩ := fordN_of ho
    have : ∀ n e t o, FordN (fun _ => .seq (.var 0) .eps) n e t o → e = .var 0 → False := by
      intro n
      induction n with
      | zero => rintro e t o h rfl; cases h
      | succ n ih =>
        rintro e t o h rfl
        cases h with
        | var h => cases h with
          | seq h _ => exact ih _ _ _ h rfl
          | seqFail h => exact ih _ _ _ h rfl
    exact this n _ _ _ hn rfl

/-- aabbcc is accepted. -/
example : ∃ n c', Outcome.of (run Abc.env n (.indirect 2) (newStrCtx (b! "aabbcc"))) = .matched c' := (C74_abc _).2 ⟨1, rfl⟩

/-- The hypotheses of the general theorems on the grammar of that example: its second rule, on `bbccx`. -/
example : ∃ n c', Outcome.of (run Abc.env n (.indirect 1) (newStrCtx (b! "bbccx"))) = .matched c' ∧ ReadOff (b! "bbccx") ['b', 'b', 'c', 'c'] (ahead c') := by
  refine (C74_matches (A := fun _ => True) (t := ['b', 'b', 'c', 'c', 'x']) (fun _ _ _ _ => trivial) Abc.means .indirect (startable_new _) ?_ ['b', 'b', 'c', 'c'] ['x'] rfl).1 ?_
  · exact (reads_text (by decide)).2 rfl
  · rcases Abc.nest_ford (rs := Abc.rules) (i := 1) rfl (p := 'b') (q := 'c') (by decide) (x := ['c', 'c', 'x']) (by simp) 2 with ⟨w, _, hw, h⟩ | ⟨h, _⟩
    · have : w = ['x'] := by simpa [List.replicate_succ] using hw.symm
      rw [this] at h; exact h
    · exact absurd rfl (h.resolve_left (by decide) ['x'])

#print axioms C74_engine_to_peg
#print axioms C74_peg_to_engine
#print axioms C74_matches
#print axioms C74_unmatched
#print axioms C74_diverges
#print axioms C74_abc

end Takenoco
