import Verif.Lemmas.TryCount
import Verif.Props.Expressive
import Verif.Lemmas.WordBoundary
/-
C104: the number of parser calls is the number of expressions tried, and may be exponential.
-/
namespace Takenoco
open Spec Trace

section
variable {rules : Nat → Pex} {p : Pex} {c : Ctx} {t : List Char} {o : Option (List Char)}

/-- **C104.** Whatever parsing expression grammar is written as in C102, with a tracer around every parser: a run that ends calls exactly as many parsers as
expressions are tried to get the result of the parsing expression. -/
theorem C104_exact (i : Info) (hc : Startable c) (ht : Reads (ahead c) t) {k : Nat} (hk : Pex.Tried rules p t o k) (n : Nat) (log : Log)
    (hn : run (fun i => (rules i).gram) n p.gram c ≠ .timeout) :
    callCount ((p.gram.traced i).run (fun name _ => (rules name).gram.traced i) n c log).2.events = callCount log.events + k := by
  have h := costs_run (rules := rules) i n p c t o k ⟨hc, ht⟩ hk log
  have hr : ((p.gram.traced i).run (fun name _ => (rules name).gram.traced i) n c log).1 = run (fun i => (rules i).gram) n p.gram c := by
    rw [C43_transparent _ (fun name => (rules name).gram) (fun _ _ => plain_traced _ _), plain_traced]
  rw [hr] at h
  cases hrun : run (fun i => (rules i).gram) n p.gram c with
  | timeout => exact absurd hrun hn
  | ok r => exact (h r hrun).1
  | panic x =>
    rcases C102_outcomes (rules := rules) (p := p) hc n with h | ⟨c', h⟩ | h
    · exact absurd h hn
    · rw [hrun] at h; cases h
    · rw [hrun] at h; cases h

/-- **C104.** The number exists and is unique whenever the parsing expression has a result. -/
theorem C104_tried : Ford (fun i => (rules i).peg) p.peg t o ↔ ∃ k, Pex.Tried rules p t o k ∧ ∀ o' k', Pex.Tried rules p t o' k' → o' = o ∧ k' = k := by
  refine ⟨fun h => ?_, fun ⟨_, h, _⟩ => tried_ford h⟩
  obtain ⟨k, hk⟩ := tried_of_aux rfl h p rfl
  have hc : Startable (newStrCtx (utf8s t)) := ⟨Nat.zero_le _, rfl⟩
  have ht : Reads (ahead (newStrCtx (utf8s t))) t := reads_utf8s t
  refine ⟨k, hk, fun o' k' h' => ?_⟩
  have ho := ford_unique (tried_ford h') h
  subst ho
  obtain ⟨N, hN⟩ := C74_peg_to_engine (A := fun _ => True) (fun _ _ _ _ => trivial) pex_env (pex_means p) hc ht o' (ford_unpad.2 h)
  have hn : run (fun i => (rules i).gram) N p.gram (newStrCtx (utf8s t)) ≠ .timeout := fun he => by
    have := hN N (Nat.le_refl _)
    rw [he] at this
    cases o' <;> exact this.elim
  have h1 := C104_exact ⟨0, "", 0, ""⟩ hc ht hk N ⟨0, []⟩ hn
  have h2 := C104_exact ⟨0, "", 0, ""⟩ hc ht h' N ⟨0, []⟩ hn
  exact ⟨rfl, by omega⟩

/-- A result of the expression ends the run. -/
theorem tried_ends (hc : Startable c) (ht : Reads (ahead c) t) {k : Nat} (hk : Pex.Tried rules p t o k) :
    ∃ N, ∀ n, N ≤ n → Spec.Agrees (fun _ => True) c t (Outcome.of (run (fun i => (rules i).gram) n p.gram c)) o ∧
      run (fun i => (rules i).gram) n p.gram c ≠ .timeout := by
  obtain ⟨N, hN⟩ := C74_peg_to_engine (A := fun _ => True) (fun _ _ _ _ => trivial) pex_env (pex_means p) hc ht o (ford_unpad.2 (tried_ford hk))
  refine ⟨N, fun n hn => ⟨hN n hn, fun he => ?_⟩⟩
  have := hN n hn
  rw [he] at this
  cases o <;> exact this.elim

end

/-! ### C104: backtracking may take exponential time -/

namespace Spec.Pex

theorem nested_length (k : Nat) : (nested k).length = 2 * k + 1 := by
  induction k with
  | zero => rfl
  | succ k ih => simp [nested, ih]; omega

theorem nested_tried (k : Nat) : ∀ rest, ∃ m, 2 ^ k ≤ m ∧ Tried (fun _ => twice) twice (nested k ++ rest) (some rest) m := by
  induction k with
  | zero =>
    intro rest
    exact ⟨_, by simp, .altRight (.seqFail (.chrNot (by decide))) (.altRight (.seqFail (.chrNot (by decide))) (.chr (by decide)))⟩
  | succ k ih =>
    intro rest
    obtain ⟨m, hm, h⟩ := ih (']' :: rest)
    rw [show nested (k + 1) ++ rest = '(' :: (nested k ++ ']' :: rest) by simp [nested]]
    refine ⟨_, ?_, .altRight (.seq (.chr (by decide)) (.seq (.var h) (.chrNot (by decide)))) (.altLeft (.seq (.chr (by decide)) (.seq (.var h) (.chr (by decide)))))⟩
    rw [Nat.pow_succ]; omega

/-- Both grammars have the same results, and the second one tries few expressions. -/
theorem both_tried (n : Nat) : ∀ t : List Char, t.length ≤ n → ∃ o k k', Tried (fun _ => twice) twice t o k ∧ Tried (fun _ => factored) factored t o k' ∧
    k' ≤ 9 * t.length + 4 := by
  induction n with
  | zero =>
    intro t ht
    have : t = [] := List.length_eq_zero_iff.1 (by omega)
    subst this
    exact ⟨none, _, _, .altRight (.seqFail .chrEnd) (.altRight (.seqFail .chrEnd) .chrEnd), .altRight (.seqFail .chrEnd) .chrEnd, by simp⟩
  | succ n ih =>
    intro t ht
    cases t with
    | nil => exact ⟨none, _, _, .altRight (.seqFail .chrEnd) (.altRight (.seqFail .chrEnd) .chrEnd), .altRight (.seqFail .chrEnd) .chrEnd, by simp⟩
    | cons ch t =>
      simp only [List.length_cons] at ht ⊢
      have eq : ∀ (a b : Char), ((· == a.toNat) b.toNat) = true ↔ b = a := fun a b => by simp [Char.toNat_inj]
      by_cases h1 : ch = '('
      · subst h1
        have lp : ∀ r, Tried r (one '(') ('(' :: t) (some t) 1 := fun _ => .chr (by decide)
        have nx : ∀ r, Tried r (one 'x') ('(' :: t) none 1 := fun _ => .chrNot (by decide)
        obtain ⟨o, k, k', h1, h2, h3⟩ := ih t (by omega)
        cases o with
        | none =>
          exact ⟨none, _, _, .altRight (.seq (lp _) (.seqFail (.var h1))) (.altRight (.seq (lp _) (.seqFail (.var h1))) (nx _)),
            .altRight (.seq (lp _) (.seqFail (.var h2))) (nx _), by omega⟩
        | some u =>
          cases u with
          | nil =>
            exact ⟨none, _, _, .altRight (.seq (lp _) (.seq (.var h1) .chrEnd)) (.altRight (.seq (lp _) (.seq (.var h1) .chrEnd)) (nx _)),
              .altRight (.seq (lp _) (.seq (.var h2) (.altRight .chrEnd .chrEnd))) (nx _), by omega⟩
          | cons d u =>
            by_cases hp : d = ')'
            · subst hp
              exact ⟨some u, _, _, .altLeft (.seq (lp _) (.seq (.var h1) (.chr (by decide)))),
                .altLeft (.seq (lp _) (.seq (.var h2) (.altLeft (.chr (by decide))))), by omega⟩
            · have np : ∀ r, Tried r (one ')') (d :: u) none 1 := fun _ => .chrNot (by rw [eq]; exact hp)
              by_cases hb : d = ']'
              · subst hb
                exact ⟨some u, _, _, .altRight (.seq (lp _) (.seq (.var h1) (np _))) (.altLeft (.seq (lp _) (.seq (.var h1) (.chr (by decide))))),
                  .altLeft (.seq (lp _) (.seq (.var h2) (.altRight (np _) (.chr (by decide))))), by omega⟩
              · have nb : ∀ r, Tried r (one ']') (d :: u) none 1 := fun _ => .chrNot (by rw [eq]; exact hb)
                exact ⟨none, _, _, .altRight (.seq (lp _) (.seq (.var h1) (np _))) (.altRight (.seq (lp _) (.seq (.var h1) (nb _))) (nx _)),
                  .altRight (.seq (lp _) (.seq (.var h2) (.altRight (np _) (nb _)))) (nx _), by omega⟩
      · have nl : ∀ r, Tried r (one '(') (ch :: t) none 1 := fun _ => .chrNot (by rw [eq]; exact h1)
        by_cases hx : ch = 'x'
        · subst hx
          exact ⟨some t, _, _, .altRight (.seqFail (nl _)) (.altRight (.seqFail (nl _)) (.chr (by decide))), .altRight (.seqFail (nl _)) (.chr (by decide)), by omega⟩
        · have nx : ∀ r, Tried r (one 'x') (ch :: t) none 1 := fun _ => .chrNot (by rw [eq]; exact hx)
          exact ⟨none, _, _, .altRight (.seqFail (nl _)) (.altRight (.seqFail (nl _)) (nx _)), .altRight (.seqFail (nl _)) (nx _), by omega⟩

end Spec.Pex

/-- `m ^ (d + 1) ≤ (d + 1) ^ (d + 1) * 2 ^ m` -/
theorem pow_le_two (d m : Nat) : m ^ (d + 1) ≤ (d + 1) ^ (d + 1) * 2 ^ m := by
  have h1 : m / (d + 1) < 2 ^ (m / (d + 1)) := Nat.lt_two_pow_self
  have h2 : m < (d + 1) * (m / (d + 1) + 1) := Nat.lt_mul_div_succ m (Nat.succ_pos d)
  have h3 : m ≤ (d + 1) * 2 ^ (m / (d + 1)) := Nat.le_trans (Nat.le_of_lt h2) (Nat.mul_le_mul_left _ h1)
  refine Nat.le_trans (Nat.pow_le_pow_left h3 (d + 1)) ?_
  rw [Nat.mul_pow, ← Nat.pow_mul]
  exact Nat.mul_le_mul_left _ (Nat.pow_le_pow_right (by omega) (Nat.div_mul_le_self ..))

/-- Powers of two grow faster than every power. -/
theorem exp_beats (a d : Nat) : ∃ k, a * (2 * k + 1 + 1) ^ d < 2 ^ k := by
  -- with `m = k + 1`, `a * 2 ^ d * m ^ d * m ≤ a * 2 ^ d * (d + 1) ^ (d + 1) * 2 ^ m`
  refine ⟨a * 2 ^ d * (d + 1) ^ (d + 1) * 2, ?_⟩
  generalize hK : a * 2 ^ d * (d + 1) ^ (d + 1) * 2 = K
  have h1 := pow_le_two d (K + 1)
  have h2 : a * (2 * K + 1 + 1) ^ d * (K + 1) ≤ K * 2 ^ K := by
    rw [show 2 * K + 1 + 1 = 2 * (K + 1) by omega, Nat.mul_pow, Nat.mul_assoc, Nat.mul_assoc, ← Nat.pow_succ]
    refine Nat.le_trans (Nat.mul_le_mul_left _ (Nat.mul_le_mul_left _ h1)) (Nat.le_of_eq ?_)
    rw [Nat.pow_succ 2 K]
    generalize 2 ^ K = x
    rw [← hK]
    ac_rfl
  refine Nat.lt_of_mul_lt_mul_right (a := K + 1) (Nat.lt_of_le_of_lt h2 ?_)
  rw [Nat.mul_comm]
  exact Nat.mul_lt_mul_of_pos_left (Nat.lt_succ_self K) (Nat.two_pow_pos K)

open Pex

/-- **C104.** There is no memory of what has been tried: `A ← '(' A ')' / '(' A ']' / 'x'` matches the text of `k` times `(`, then `x`, then `k` times `]`
to its end, with at least `2 ^ k` parser calls. -/
theorem C104_exponential (i : Info) (k : Nat) : (utf8s (nested k)).length = 2 * k + 1 ∧
    ∃ N, ∀ n, N ≤ n → (∃ c', Outcome.of (run (fun _ => twice.gram) n twice.gram (newStrCtx (utf8s (nested k)))) = .matched c' ∧ c'.pos = 2 * k + 1) ∧
      ∀ log, callCount log.events + 2 ^ k ≤
        callCount ((twice.gram.traced i).run (fun _ _ => twice.gram.traced i) n (newStrCtx (utf8s (nested k))) log).2.events := by
  have hl : (utf8s (nested k)).length = 2 * k + 1 := by
    have : ∀ k, (utf8s (nested k)).length = 2 * k + 1 := by
      intro k
      induction k with
      | zero => decide
      | succ k ih =>
        have e : (utf8 '(').length = 1 ∧ (utf8 ']').length = 1 := by decide
        rw [nested, utf8s_cons, utf8s_append, utf8s_single, List.length_append, List.length_append, ih, e.1, e.2]; omega
    exact this k
  have hc : Startable (newStrCtx (utf8s (nested k))) := ⟨Nat.zero_le _, rfl⟩
  have ht : Reads (ahead (newStrCtx (utf8s (nested k)))) (nested k) := reads_utf8s _
  obtain ⟨m, hm, h⟩ := nested_tried k []
  rw [List.append_nil] at h
  obtain ⟨N, hN⟩ := tried_ends hc ht h
  refine ⟨hl, N, fun n hn => ⟨?_, fun log => ?_⟩⟩
  · obtain ⟨c', h1, h2⟩ := (hN n hn).1.some
    refine ⟨c', h1, ?_⟩
    have hr := h2.reads ht
    have ha : ahead c' = [] := by
      generalize ahead c' = x at hr
      cases hr; rfl
    have h3 : c'.str = utf8s (nested k) := h2.str
    have h4 := h2.inside
    have h5 := congrArg List.length ha
    simp only [ahead, List.length_drop, List.length_nil] at h5
    rw [h3, hl] at h4 h5
    omega
  · have := C104_exact (rules := fun _ => twice) i hc ht h n log (hN n hn).2
    rw [this]; omega

/-- **C104.** So no power of the length bounds the number of parser calls, for this grammar with one nonterminal. -/
theorem C104_not_polynomial (i : Info) (a d : Nat) : ∃ (s : Bytes) (N : Nat), ∀ n, N ≤ n → ∀ log, callCount log.events + a * (s.length + 1) ^ d <
    callCount ((twice.gram.traced i).run (fun _ _ => twice.gram.traced i) n (newStrCtx s) log).2.events := by
  obtain ⟨k, hk⟩ := exp_beats a d
  obtain ⟨hl, N, hN⟩ := C104_exponential i k
  refine ⟨utf8s (nested k), N, fun n hn log => ?_⟩
  have := (hN n hn).2 log
  rw [hl]
  omega

/-- **C104.** That is the way the grammar is written: with what the alternatives share written once, it has the same results on all texts, and needs at most
`9 n + 4` parser calls for a text of `n` bytes. -/
theorem C104_factored (i : Info) : (∀ t o, Ford (fun _ => twice.peg) twice.peg t o ↔ Ford (fun _ => factored.peg) factored.peg t o) ∧
    ∀ s : Bytes, ∃ N, ∀ n, N ≤ n → ∀ log,
      callCount ((factored.gram.traced i).run (fun _ _ => factored.gram.traced i) n (newStrCtx s) log).2.events ≤ callCount log.events + (9 * s.length + 4) := by
  refine ⟨fun t o => ?_, fun s => ?_⟩
  · obtain ⟨o', k, k', h1, h2, _⟩ := both_tried t.length t (Nat.le_refl _)
    have f1 := tried_ford h1
    have f2 := tried_ford h2
    exact ⟨fun h => by rw [ford_unique h f1]; exact f2, fun h => by rw [ford_unique h f2]; exact f1⟩
  · obtain ⟨t, hr⟩ := reads_total s
    obtain ⟨o', k, k', -, h2, h3⟩ := both_tried t.length t (Nat.le_refl _)
    have hc : Startable (newStrCtx s) := ⟨Nat.zero_le _, rfl⟩
    obtain ⟨N, hN⟩ := tried_ends hc hr h2
    refine ⟨N, fun n hn log => ?_⟩
    have := C104_exact (rules := fun _ => factored) i hc hr h2 n log (hN n hn).2
    have := reads_length hr
    omega

/-! ### Cases -/

example : utf8s (nested 3) = b! "(((x]]]" := by decide +kernel

/-- 140 calls for `(((x]]]` with the first grammar, 28 with the second. -/
example : callCount ((twice.gram.traced ⟨0, "", 0, ""⟩).run (fun _ _ => twice.gram.traced ⟨0, "", 0, ""⟩) 60 (newStrCtx (b! "(((x]]]")) ⟨0, []⟩).2.events = 140 := by
  decide +kernel

example : callCount ((factored.gram.traced ⟨0, "", 0, ""⟩).run (fun _ _ => factored.gram.traced ⟨0, "", 0, ""⟩) 60 (newStrCtx (b! "(((x]]]")) ⟨0, []⟩).2.events = 28 := by
  decide +kernel

/-- `[^x]* x` on `ab`: the repetition, its body three times, the sequence and `x`. -/
example : Pex.Tried (fun _ => .eps) (.seq (.star (.chr (· != 0x78))) (one 'x')) ['a', 'b', 'x'] (some []) 6 :=
  .seq (k := 4) (k' := 1) (.starMore (k := 1) (k' := 2) (.chr (by decide)) (.starMore (k := 1) (k' := 1) (.chr (by decide)) (.starEnd (.chrNot (by decide))))) (.chr (by decide))

#print axioms C104_exact
#print axioms C104_tried
#print axioms C104_exponential
#print axioms C104_not_polynomial
#print axioms C104_factored

end Takenoco
