import Verif.Lemmas.Combinators
import Verif.Lemmas.Terminals
/-
Properties C04-C06, C14 (and the part of C15 about arbitrary children): repetition, look-around and
transformation over arbitrary child parsers.
-/
namespace Takenoco
open Spec

/-! ### C04 Repeat is greedy and bounded -/

/-- `MaximalReps t ps c n c'`: `n` consecutive matches of the sequence `ps` lead from `c` to `c'`, and no
further one is possible: `Max` is reached or the sequence does not match at `c'`. -/
def MaximalReps (t : Times) (ps : List Sem) (c : Ctx) (n : Nat) (c' : Ctx) : Prop :=
  Reps ps 0 (enter ":base:Repeat" c) n c' ∧ (0 ≤ t.max → (n : Int) ≤ t.max) ∧
    (t.max = n ∨ Seq ps c' .unmatched)

/-- C04. If `Repeat{Min,Max}(ps)` matches, then with the largest possible number `n` of consecutive
matches not exceeding `Max`; `n` is at least `Min` and is reported as the quantity. -/
theorem C04_repeat_matched (fuel : Nat) (t : Times) (ps : List Sem) (c o : Ctx)
    (h : Outcome.of (repeatP fuel t ps c) = .matched o) :
    ∃ n c', MaximalReps t ps c n c' ∧ t.min ≤ n ∧ o = { c' with qty := n } := by
  rcases reps_cases ps (iterLimit fuel t) 0 (enter ":base:Repeat" c) with ⟨c', hr⟩ | ⟨n, c', r, hn, hr, hs, hne⟩
  · have hst := hr.status rfl
    by_cases hm : t.max < 0
    · rw [repeatP_fuel (by simpa [iterLimit, hm] using hr) hm] at h
      simp [Outcome.of] at h
    · have hmax : t.max = (iterLimit fuel t : Nat) := by simp [iterLimit, hm]; omega
      rw [repeatP_max hr hmax] at h
      simp only [repResult] at h
      split at h
      · refine ⟨_, c', ⟨hr, fun _ => by omega, .inl hmax⟩, ‹_›, ?_⟩
        simp [Outcome.of, hst] at h
        rw [hst]; exact h.symm
      · simp [Outcome.of] at h
  · have hst := hr.status rfl
    rw [repeatP_stop hr hn hs hne] at h
    cases r with
    | matched c'' => exact absurd rfl (hne _)
    | unmatched =>
      simp only [repResult] at h
      split at h
      · refine ⟨n, c', ⟨hr, ?_, .inr hs⟩, ‹_›, ?_⟩
        · intro h0
          have : ¬ t.max < 0 := by omega
          simp [iterLimit, this] at hn; omega
        · simp [Outcome.of, hst] at h
          rw [hst]; exact h.symm
      · simp [Outcome.of] at h
    | failed c'' e =>
      have := hs.failed_status
      cases e <;> simp [repResult, Outcome.of, this] at h
    | panicked p => simp [repResult, Outcome.of] at h
    | timedOut => simp [repResult, Outcome.of] at h

/-- The result of a maximal repetition: matched iff at least `Min` iterations were possible. (For a
repetition without `Max` the model needs fuel for the iterations.) -/
theorem C04_repeat_maximal (fuel : Nat) (t : Times) (ps : List Sem) (c c' : Ctx) (n : Nat)
    (h : MaximalReps t ps c n c') (hfuel : t.max < 0 → n < fuel) :
    Outcome.of (repeatP fuel t ps c) = if t.min ≤ n then .matched { c' with qty := n } else .unmatched := by
  obtain ⟨hr, hle, hend⟩ := h
  have hst := hr.status rfl
  have fin : Outcome.of (repResult t n c' none) =
      if t.min ≤ n then .matched { c' with qty := n } else .unmatched := by
    simp only [repResult]
    split <;> simp [Outcome.of, hst]
  by_cases hmax : t.max = n
  · rw [repeatP_max hr hmax]; exact fin
  · have hs : Seq ps c' .unmatched := hend.resolve_left hmax
    rw [repeatP_stop hr ?_ hs (by simp)]
    · exact fin
    · unfold iterLimit
      split
      · exact hfuel ‹_›
      · have := hle (by omega); omega

/-- C04. If `Repeat{Min,Max}(ps)` is unmatched, the largest possible number of consecutive matches not
exceeding `Max` is below `Min`. -/
theorem C04_repeat_unmatched (fuel : Nat) (t : Times) (ps : List Sem) (c : Ctx)
    (h : Outcome.of (repeatP fuel t ps c) = .unmatched) :
    ∃ n c', MaximalReps t ps c n c' ∧ (n : Int) < t.min := by
  rcases reps_cases ps (iterLimit fuel t) 0 (enter ":base:Repeat" c) with ⟨c', hr⟩ | ⟨n, c', r, hn, hr, hs, hne⟩
  · have hst := hr.status rfl
    by_cases hm : t.max < 0
    · rw [repeatP_fuel (by simpa [iterLimit, hm] using hr) hm] at h
      simp [Outcome.of] at h
    · have hmax : t.max = (iterLimit fuel t : Nat) := by simp [iterLimit, hm]; omega
      rw [repeatP_max hr hmax] at h
      simp only [repResult] at h
      split at h
      · simp [Outcome.of, hst] at h
      · exact ⟨_, c', ⟨hr, fun _ => by omega, .inl hmax⟩, by omega⟩
  · have hst := hr.status rfl
    rw [repeatP_stop hr hn hs hne] at h
    cases r with
    | matched c'' => exact absurd rfl (hne _)
    | unmatched =>
      simp only [repResult] at h
      split at h
      · simp [Outcome.of, hst] at h
      · refine ⟨n, c', ⟨hr, ?_, .inr hs⟩, by omega⟩
        intro h0
        have : ¬ t.max < 0 := by omega
        simp [iterLimit, this] at hn; omega
    | failed c'' e =>
      have := hs.failed_status
      cases e <;> simp [repResult, Outcome.of, this] at h
    | panicked p => simp [repResult, Outcome.of] at h
    | timedOut => simp [repResult, Outcome.of] at h

/-- C04. The number of iterations and their result are unique, so "the largest number" is well defined. -/
theorem C04_maximal_unique {t : Times} {ps : List Sem} {c c1 c2 : Ctx} {n m : Nat}
    (h1 : MaximalReps t ps c n c1) (h2 : MaximalReps t ps c m c2) : n = m ∧ c1 = c2 := by
  have le : ∀ {n m c1 c2}, MaximalReps t ps c n c1 → MaximalReps t ps c m c2 → m ≤ n := by
    intro n m c1 c2 h1 h2
    rcases h1.2.2 with h | h
    · have := h2.2.1 (by omega); omega
    · exact h1.1.stop_unique h (by simp) h2.1
  have : n = m := Nat.le_antisymm (le h2 h1) (le h1 h2)
  subst this
  exact ⟨rfl, h1.1.det h2.1⟩

/-- C04. The named repetitions are instances of `Repeat`. -/
theorem C04_instances (fuel : Nat) (ps : List Sem) :
    once ps = repeatP 0 ⟨1, 1⟩ ps ∧ zeroOrOnce ps = repeatP 0 ⟨0, 1⟩ ps ∧
    zeroOrMoreTimes fuel ps = repeatP fuel ⟨0, -1⟩ ps ∧ oneOrMoreTimes fuel ps = repeatP fuel ⟨1, -1⟩ ps :=
  ⟨rfl, rfl, rfl, rfl⟩

example : ∃ o, Outcome.of (repeatP 0 ⟨1, 2⟩ [number] (newStrCtx b!"777")) = .matched o ∧ o.pos = 2 ∧
    o.qty = 2 := ⟨_, rfl, rfl, rfl⟩
example : ∃ o, Outcome.of (repeatP 5 ⟨1, -1⟩ [number] (newStrCtx b!"777x")) = .matched o ∧ o.pos = 3 ∧
    o.qty = 3 := ⟨_, rfl, rfl, rfl⟩
example : Outcome.of (repeatP 0 ⟨3, 5⟩ [number] (newStrCtx b!"77x")) = .unmatched := rfl
example : ∃ c', MaximalReps ⟨0, 1⟩ [number] (newStrCtx b!"77") 1 c' :=
  ⟨_, .succ (.step rfl .done) .zero, by simp, .inl rfl⟩

/-! ### C05 LookAhead and LookAheadN are zero-width -/

/-- C05. `LookAhead(ps)` matches iff the sequence matches here; then it returns the given context. -/
theorem C05_lookAhead (ps : List Sem) (c : Ctx) (hc : c.status = .matched) :
    (∀ o, Outcome.of (lookAhead ps c) = .matched o ↔
      (∃ c', Seq ps (enter ":base:LookAhead" c) (.matched c')) ∧ o = { c with cls := ":base:LookAhead" }) ∧
    (Outcome.of (lookAhead ps c) = .unmatched ↔ Seq ps (enter ":base:LookAhead" c) .unmatched) := by
  obtain ⟨r, hr⟩ := Seq.total ps (enter ":base:LookAhead" c)
  rw [lookAhead_eq hr]
  refine ⟨fun o => ⟨fun h => ?_, ?_⟩, fun h => ?_, fun h => ?_⟩
  · cases r with
    | matched c' =>
      simp [onceResult, applyTransforms, Outcome.of, hc] at h
      exact ⟨⟨c', hr⟩, by rw [hc]; exact h.symm⟩
    | unmatched => simp [onceResult, Outcome.of] at h
    | failed c' e =>
      have hs := hr.failed_status
      cases e <;> simp [onceResult, Outcome.of, hs] at h
    | panicked p => simp [onceResult, Outcome.of] at h
    | timedOut => simp [onceResult, Outcome.of] at h
  · rintro ⟨⟨c', h⟩, rfl⟩
    have := hr.det h
    subst this
    simp [onceResult, applyTransforms, Outcome.of, hc]
  · cases r with
    | matched c' => simp [onceResult, applyTransforms, Outcome.of, hc] at h
    | unmatched => exact hr
    | failed c' e =>
      have hs := hr.failed_status
      cases e <;> simp [onceResult, Outcome.of, hs] at h
    | panicked p => simp [onceResult, Outcome.of] at h
    | timedOut => simp [onceResult, Outcome.of] at h
  · have := hr.det h
    subst this
    simp [onceResult, Outcome.of]

/-- C05. `LookAheadN(ps)` matches iff the sequence is unmatched here; then it returns the given context. -/
theorem C05_lookAheadN (ps : List Sem) (c : Ctx) (hc : c.status = .matched) :
    (∀ o, Outcome.of (lookAheadN ps c) = .matched o ↔
      Seq ps (enter ":base:LookAheadN" c) .unmatched ∧ o = { c with cls := ":base:LookAheadN" }) ∧
    (Outcome.of (lookAheadN ps c) = .unmatched ↔
      ∃ c', Seq ps (enter ":base:LookAheadN" c) (.matched c')) := by
  obtain ⟨r, hr⟩ := Seq.total ps (enter ":base:LookAheadN" c)
  rw [lookAheadN_eq hr]
  refine ⟨fun o => ⟨fun h => ?_, ?_⟩, fun h => ?_, ?_⟩
  · cases r with
    | matched c' => simp [onceResult, Outcome.of] at h
    | unmatched =>
      simp [onceResult, applyTransforms, Outcome.of, hc] at h
      exact ⟨hr, by rw [hc]; exact h.symm⟩
    | failed c' e =>
      have hs := hr.failed_status
      cases e <;> simp [onceResult, Outcome.of, hs] at h
    | panicked p => simp [onceResult, Outcome.of] at h
    | timedOut => simp [onceResult, Outcome.of] at h
  · rintro ⟨h, rfl⟩
    have := hr.det h
    subst this
    simp [onceResult, applyTransforms, Outcome.of, hc]
  · cases r with
    | matched c' => exact ⟨c', hr⟩
    | unmatched => simp [onceResult, applyTransforms, Outcome.of, hc] at h
    | failed c' e =>
      have hs := hr.failed_status
      cases e <;> simp [onceResult, Outcome.of, hs] at h
    | panicked p => simp [onceResult, Outcome.of] at h
    | timedOut => simp [onceResult, Outcome.of] at h
  · rintro ⟨c', h⟩
    have := hr.det h
    subst this
    simp [onceResult, Outcome.of]

example : ∃ o, Outcome.of (lookAhead [number, alpha] (newStrCtx b!"7x")) = .matched o ∧ o.pos = 0 ∧
    o.stack = [] := ⟨_, rfl, rfl, rfl⟩
example : Outcome.of (lookAheadN [number, alpha] (newStrCtx b!"7x")) = .unmatched := rfl
example : ∃ o, Outcome.of (lookAheadN [number, alpha] (newStrCtx b!"77")) = .matched o ∧ o.pos = 0 :=
  ⟨_, rfl, rfl⟩

/-! ### C06 LookBehind and LookBehindN -/

/-- The sequence neither fails nor panics nor runs forever at any distance in the range. -/
def BehindDefined (cls : String) (minN maxN : Int) (ps : List Sem) (c : Ctx) : Prop :=
  ∀ i, minN ≤ i → i ≤ maxN → i ≤ c.pos → ∀ r, BehindAt cls ps c i r → r = .unmatched ∨ ∃ c', r = .matched c'

theorem goesOn_of_defined {cls : String} {minN maxN : Int} {ps : List Sem} {c : Ctx}
    (hd : BehindDefined cls minN maxN ps c) {i : Int} {r : Outcome} (h1 : minN ≤ i) (h2 : i ≤ maxN)
    (h3 : i ≤ c.pos) (h : BehindAt cls ps c i r) : GoesOn r ↔ r = .unmatched := by
  constructor
  · rintro (h | ⟨o, rfl⟩)
    · exact h
    · rcases hd i h1 h2 h3 _ h with h | ⟨c', h⟩ <;> cases h
  · exact .inl

/-- C06. `LookBehind(min,max,ps)` matches iff at some distance in `[min,max]` that stays inside the source
the sequence matches; it then returns exactly the given context. Otherwise it is unmatched. -/
theorem C06_lookBehind (minN maxN : Int) (ps : List Sem) (c : Ctx) (hc : c.status = .matched)
    (hd : BehindDefined ":base:LookBehind" minN maxN ps c) :
    ((∃ i c', minN ≤ i ∧ i ≤ maxN ∧ i ≤ c.pos ∧ BehindAt ":base:LookBehind" ps c i (.matched c')) →
      lookBehind minN maxN ps c = .ok (c, none)) ∧
    ((¬ ∃ i c', minN ≤ i ∧ i ≤ maxN ∧ i ≤ c.pos ∧ BehindAt ":base:LookBehind" ps c i (.matched c')) →
      lookBehind minN maxN ps c = .ok ({ c with status := .unmatched }, none)) := by
  rcases lookBehind_cases ":base:LookBehind" ps c minN (maxN - minN + 1).toNat with h | ⟨i, r, h1, h2, h3, h4, h5, h6⟩
  · constructor
    · rintro ⟨i, c', h1, h2, h3, h4⟩
      obtain ⟨r, hr, hg⟩ := h i h1 (by omega) h3
      have := hr.det h4
      subst this
      rcases hg with hg | ⟨_, hg⟩ <;> cases hg
    · intro _
      exact lookBehindBase_none (neg := false) (fun j a b d => h j a (by omega) d)
  · have h2' : i ≤ maxN := by omega
    have hm : ∃ c', r = .matched c' :=
      (hd i h1 h2' h3 r h4).resolve_left (fun hr => h5 (.inl hr))
    obtain ⟨c', rfl⟩ := hm
    constructor
    · intro _
      exact lookBehindBase_stop (neg := false) hc h1 h2' h3 h4 h5 h6
    · intro hn
      exact absurd ⟨i, c', h1, h2', h3, h4⟩ hn

/-- C06. `LookBehindN(min,max,ps)` matches iff there is no distance in `[min,max]` inside the source at
which the sequence matches; it then returns exactly the given context. -/
theorem C06_lookBehindN (minN maxN : Int) (ps : List Sem) (c : Ctx) (hc : c.status = .matched)
    (hd : BehindDefined ":base:LookBehindN" minN maxN ps c) :
    ((∃ i c', minN ≤ i ∧ i ≤ maxN ∧ i ≤ c.pos ∧ BehindAt ":base:LookBehindN" ps c i (.matched c')) →
      Outcome.of (lookBehindN minN maxN ps c) = .unmatched) ∧
    ((¬ ∃ i c', minN ≤ i ∧ i ≤ maxN ∧ i ≤ c.pos ∧ BehindAt ":base:LookBehindN" ps c i (.matched c')) →
      lookBehindN minN maxN ps c = .ok (c, none)) := by
  rcases lookBehind_cases ":base:LookBehindN" ps c minN (maxN - minN + 1).toNat with h | ⟨i, r, h1, h2, h3, h4, h5, h6⟩
  · constructor
    · rintro ⟨i, c', h1, h2, h3, h4⟩
      obtain ⟨r, hr, hg⟩ := h i h1 (by omega) h3
      have := hr.det h4
      subst this
      rcases hg with hg | ⟨_, hg⟩ <;> cases hg
    · intro _
      have := lookBehindBase_none (neg := true) (fun j a b d => h j a (by omega) d) (maxN := maxN)
      rw [lookBehindN, this]
      cases c; simp_all
  · have h2' : i ≤ maxN := by omega
    have hm : ∃ c', r = .matched c' :=
      (hd i h1 h2' h3 r h4).resolve_left (fun hr => h5 (.inl hr))
    obtain ⟨c', rfl⟩ := hm
    constructor
    · intro _
      have := lookBehindBase_stop (neg := true) hc h1 h2' h3 h4 h5 h6
      rw [lookBehindN, this]
      simp [behindResult, Outcome.of]
    · intro hn
      exact absurd ⟨i, c', h1, h2', h3, h4⟩ hn

/-- C06. The general form, without assumption on the children: the smallest distance at which the
sequence matches, fails with an error, panics or diverges decides. (A child that reports status error
without an error value is passed over like an unmatched one.) -/
theorem C06_lookBehind_general (minN maxN : Int) (ps : List Sem) (c : Ctx) (hc : c.status = .matched)
    (i : Int) (r : Outcome) (h1 : minN ≤ i) (h2 : i ≤ maxN) (h3 : i ≤ c.pos)
    (hb : BehindAt ":base:LookBehind" ps c i r) (hr : ¬ GoesOn r)
    (hj : ∀ j, minN ≤ j → j < i → j ≤ c.pos → ∃ r, BehindAt ":base:LookBehind" ps c j r ∧ GoesOn r) :
    Outcome.of (lookBehind minN maxN ps c) = match r with
      | .matched _ => .matched c
      | r => r := by
  have := lookBehindBase_stop (neg := false) (maxN := maxN) hc h1 h2 h3 hb hr hj
  rw [lookBehind, this]
  cases r with
  | matched c' => simp [behindResult, Outcome.of, hc]
  | unmatched => exact absurd (.inl rfl) hr
  | failed o e =>
    have hs := hb.failed_status
    cases e with
    | none => exact absurd (.inr ⟨o, rfl⟩) hr
    | some e => exact Outcome.of_failed hs
  | panicked p => rfl
  | timedOut => rfl

/-- From position 3 of `ab1` the letters `ab` are found 3 bytes back. -/
example : ∃ o, Outcome.of (lookBehind 1 3 [alpha, alpha] { newStrCtx b!"ab1" with pos := 3 }) = .matched o ∧
    o.pos = 3 ∧ o.stack = [] := ⟨_, rfl, rfl, rfl⟩
example : Outcome.of (lookBehind 1 2 [alpha, alpha] { newStrCtx b!"ab1" with pos := 3 }) = .unmatched := rfl
example : ∃ o, Outcome.of (lookBehindN 1 2 [alpha, alpha] { newStrCtx b!"ab1" with pos := 3 }) = .matched o :=
  ⟨_, rfl⟩

/-! ### C13 Termination and non-termination of repetition -/

/-- C13. A repetition whose body always advances the position, up to a bound, terminates: with more
fuel than the bound it does not time out, unless the body itself does. `I` is any invariant of the
contexts that occur (for example "the source is `s` and the position is inside it"). -/
theorem C13_repeat_terminates (I : Ctx → Prop) (B : Nat) (t : Times) (ps : List Sem) (c : Ctx)
    (hI : I (enter ":base:Repeat" c))
    (hadv : ∀ d d', I d → Seq ps d (.matched d') →
      d.pos < d'.pos ∧ d'.pos ≤ B ∧ ∀ k, I { d' with qty := k })
    (hto : ∀ d, I d → ¬ Seq ps d .timedOut) (fuel : Nat) (hfuel : B < fuel) :
    repeatP fuel t ps c ≠ .timeout := by
  have bound : ∀ {k n : Nat} {d d' : Ctx}, I d → Reps ps k d n d' → I d' ∧ (0 < n → d.pos + n ≤ d'.pos ∧ d'.pos ≤ B) := by
    intro k n d d' hd hr
    induction hr with
    | zero => exact ⟨hd, by omega⟩
    | @succ k n c c1 c' hs _ ih =>
      obtain ⟨a, b, hk⟩ := hadv _ _ hd hs
      obtain ⟨ih1, ih2⟩ := ih (hk k)
      refine ⟨ih1, fun _ => ?_⟩
      by_cases hn : 0 < n
      · have := ih2 hn
        simp only at this
        omega
      · have : n = 0 := by omega
        subst this
        rename_i hr' _
        cases hr'
        exact ⟨by simp only; omega, b⟩
  rcases reps_cases ps (iterLimit fuel t) 0 (enter ":base:Repeat" c) with ⟨c', hr⟩ | ⟨n, c', r, hn, hr, hs, hne⟩
  · by_cases hm : t.max < 0
    · simp only [iterLimit, hm, if_true] at hr
      have := (bound hI hr).2 (by omega)
      omega
    · have hmax : t.max = (iterLimit fuel t : Nat) := by simp [iterLimit, hm]; omega
      rw [repeatP_max hr hmax]
      simp only [repResult]; split <;> simp
  · rw [repeatP_stop hr hn hs hne]
    have := (bound hI hr).1
    cases r with
    | matched c'' => exact absurd rfl (hne _)
    | unmatched => simp only [repResult]; split <;> simp
    | failed c'' e => simp [repResult]
    | panicked p => simp [repResult]
    | timedOut => exact absurd hs (hto _ this)

/-- C13. Once a repetition terminates, more fuel does not change its result. -/
theorem C13_repeat_fuel_irrelevant (t : Times) (ps : List Sem) (c : Ctx) (n m : Nat) (hnm : n ≤ m)
    (h : repeatP n t ps c ≠ .timeout) : repeatP m t ps c = repeatP n t ps c := by
  by_cases hm : t.max < 0
  · rcases reps_cases ps (iterLimit n t) 0 (enter ":base:Repeat" c) with ⟨c', hr⟩ | ⟨k, c', r, hk, hr, hs, hne⟩
    · simp only [iterLimit, hm, if_true] at hr
      exact absurd (repeatP_fuel hr hm) h
    · rw [repeatP_stop hr hk hs hne, repeatP_stop hr ?_ hs hne]
      simp only [iterLimit, hm, if_true] at hk ⊢; omega
  · unfold repeatP baseParser
    rw [readProps_times]
    simp [hm]

/-- C13. A repetition without `Max` whose body matches again and again (on a set `I` of contexts that it
does not leave) never terminates: it times out for every fuel. -/
theorem C13_repeat_diverges (I : Ctx → Prop) (min max : Int) (hmax : max < 0) (ps : List Sem) (c : Ctx)
    (hI : I (enter ":base:Repeat" c))
    (hbody : ∀ d, I d → ∃ d', Seq ps d (.matched d') ∧ ∀ k, I { d' with qty := k }) (fuel : Nat) :
    repeatP fuel ⟨min, max⟩ ps c = .timeout := by
  have : ∀ n k d, I d → ∃ d', Reps ps k d n d' := by
    intro n
    induction n with
    | zero => intro k d _; exact ⟨d, .zero⟩
    | succ n ih =>
      intro k d hd
      obtain ⟨d1, h1, h2⟩ := hbody d hd
      obtain ⟨d', h3⟩ := ih (k + 1) _ (h2 k)
      exact ⟨d', .succ h1 h3⟩
  obtain ⟨d', h⟩ := this fuel 0 _ hI
  exact repeatP_fuel h hmax

/-- C13. In particular `ZeroOrMoreTimes(Zero())` never terminates, on any context. -/
theorem C13_star_zero_diverges (c : Ctx) (fuel : Nat) : zeroOrMoreTimes fuel [zeroP []] c = .timeout :=
  C13_repeat_diverges (fun _ => True) 0 (-1) (by omega) _ c trivial
    (fun d _ => ⟨_, .step rfl .done, fun _ => trivial⟩) fuel

/-- C13. A repetition of a negative look-ahead that holds here never terminates. -/
theorem C13_star_lookAheadN_end_diverges (c : Ctx) (fuel : Nat) (h : c.pos < c.str.length) :
    zeroOrMoreTimes fuel [lookAheadN [endS]] c = .timeout := by
  refine C13_repeat_diverges (fun d => d.pos < d.str.length ∧ d.status = .matched) 0 (-1) (by omega) _ c
    ⟨h, rfl⟩ ?_ fuel
  rintro d ⟨hd, hs⟩
  refine ⟨{ d with cls := ":base:LookAheadN" }, .step ?_ .done, fun k => ⟨hd, hs⟩⟩
  refine ((C05_lookAheadN _ d hs).1 _).2 ⟨.stop ?_ (by simp), rfl⟩
  rw [endS_eq, if_neg (by simp [enter]; omega)]
  rfl

/-- The hypotheses of `C13_repeat_terminates` are met by "one or more digits" on every source. -/
example (s : Bytes) (fuel : Nat) (hf : s.length < fuel) :
    repeatP fuel qtyOneOrMoreTimes [number] (newStrCtx s) ≠ .timeout := by
  refine C13_repeat_terminates (fun c => c.str = s ∧ c.pos ≤ s.length) s.length _ _ _
    ⟨rfl, by simp [enter, newStrCtx]⟩ ?_ ?_ fuel hf
  · rintro d d' ⟨rfl, hd⟩ h
    cases h with
    | stop _ hne => exact absurd rfl (hne _)
    | step h h' =>
      cases h'
      rw [number, charFn_eq _ _ _ _ hd] at h
      split at h
      · rename_i hp
        have h1 := decodeRune_len_le (d.str.drop d.pos)
        have h2 := decodeRune_len_pos (s := d.str.drop d.pos) (by simp; omega)
        simp [Outcome.of, pushStr] at h
        subst h
        simp at h1
        exact ⟨by simp; omega, by simp; omega, fun k => ⟨rfl, by simp; omega⟩⟩
      · simp [Outcome.of, tokenUnmatched] at h
  · rintro d ⟨rfl, hd⟩ h
    cases h with
    | step h h' => cases h'
    | stop h _ =>
      rw [number, charFn_eq _ _ _ _ hd] at h
      split at h <;> simp [Outcome.of, pushStr, tokenUnmatched] at h

/-! ### C14 Trans rewrites exactly what the child produced -/

/-- C14. `Trans(p, tr...)` matches iff `p` matches and the transformers, applied from left to right to
exactly the ASTs that `p` added to the stack, succeed; their result replaces these ASTs, and the rest of
the context is `p`'s (with quantity 1). -/
theorem C14_trans_matched (p : Sem) (tr : List TSem) (c o : Ctx)
    (hstack : ∀ c', Outcome.of (p (enter ":base:Trans" c)) = .matched c' → ∃ new, c'.stack = c.stack ++ new) :
    Outcome.of (trans p tr c) = .matched o ↔
      ∃ c' new asts, Outcome.of (p (enter ":base:Trans" c)) = .matched c' ∧ c'.stack = c.stack ++ new ∧
        Pipe { c with cls := ":base:Trans" } tr new (.ok asts) ∧
        o = { c' with qty := 1, stack := c.stack ++ asts } := by
  cases hr : Outcome.of (p (enter ":base:Trans" c)) with
  | matched c' =>
    obtain ⟨new, hnew⟩ := hstack c' hr
    have hs := Outcome.of_matched_status hr
    rw [trans_eq (seq_single hr)]
    simp only [onceResult, Bool.false_eq_true, if_false]
    have happ : applyTransforms (variadic tr) { c with cls := ":base:Trans" } { c' with qty := 1 } =
        match applyTrs { c with cls := ":base:Trans" } tr new with
        | .panic p => .panic p
        | .timeout => .timeout
        | .ok (_, some e) => .ok ({ c' with qty := 1, status := .error }, some e)
        | .ok (asts, none) => .ok ({ c' with qty := 1, stack := c.stack ++ asts }, none) := by
      cases tr with
      | nil => simp [variadic, applyTransforms, applyTrs, ← hnew]
      | cons t ts => simp [variadic, applyTransforms, hnew, add_lt_false]; rfl
    rw [happ]
    constructor
    · intro h
      cases ha : applyTrs { c with cls := ":base:Trans" } tr new with
      | panic x => simp [ha, Outcome.of] at h
      | timeout => simp [ha, Outcome.of] at h
      | ok le =>
        obtain ⟨asts, e⟩ := le
        cases e with
        | some e => simp [ha, Outcome.of] at h
        | none =>
          have := pipe_of_applyTrs ha
          simp [ha, Outcome.of, hs] at h
          exact ⟨c', new, asts, rfl, hnew, this, by rw [hs]; exact h.symm⟩
    · rintro ⟨c'', new', asts, h1, h2, h3, rfl⟩
      cases h1
      rw [hnew] at h2
      have := List.append_cancel_left h2
      subst this
      rw [applyTrs_pipe h3]
      simp [Outcome.of, hs]
  | unmatched =>
    rw [trans_eq (seq_single hr)]
    simp [onceResult, Outcome.of]
  | failed c' e =>
    have hs := Outcome.of_failed_status hr
    rw [trans_eq (seq_single hr)]
    cases e <;> simp [onceResult, Outcome.of, hs]
  | panicked x =>
    rw [trans_eq (seq_single hr)]
    simp [onceResult, Outcome.of]
  | timedOut =>
    rw [trans_eq (seq_single hr)]
    simp [onceResult, Outcome.of]

/-- C14. `Trans` is unmatched exactly when its child is; then nothing but status and class name of the
given context changes. -/
theorem C14_trans_unmatched (p : Sem) (tr : List TSem) (c : Ctx)
    (hp : Outcome.of (p (enter ":base:Trans" c)) = .unmatched) :
    trans p tr c = .ok ({ c with cls := ":base:Trans", status := .unmatched }, none) := by
  rw [trans_eq (seq_single hp)]; rfl

/-- C14. If the child matches and a transformer fails, `Trans` fails with that transformer's error; the
position is the child's. Later transformers are not called. -/
theorem C14_trans_transformer_error (p : Sem) (tr : List TSem) (c c' : Ctx) (new : List Ast) (e : Err)
    (hp : Outcome.of (p (enter ":base:Trans" c)) = .matched c') (hnew : c'.stack = c.stack ++ new)
    (ht : Pipe { c with cls := ":base:Trans" } tr new (.error e)) :
    trans p tr c = .ok ({ c' with qty := 1, status := .error }, some e) := by
  rw [trans_eq (seq_single hp)]
  obtain ⟨l, hl⟩ := applyTrs_pipe ht
  cases tr with
  | nil => cases ht
  | cons t ts => simp [onceResult, variadic, applyTransforms, hnew, add_lt_false, hl]

/-- Digits are concatenated; the AST that was on the stack before is kept. -/
example : ∃ o v, Outcome.of (trans (flatGroup [number, number]) [fun _ l => .ok (l.take 1, none)]
      { newStrCtx b!"77" with stack := [Ast.zero] }) = .matched o ∧
    o.stack = [Ast.zero, v] ∧ o.pos = 2 := ⟨_, _, rfl, rfl, rfl⟩
example : ∃ o, Outcome.of (trans number [transformError "bad", erase] (newStrCtx b!"77")) =
    .failed o (some (.msg "bad")) := ⟨_, rfl⟩

/-! ### C15 Erase and Group (over arbitrary children; see also `Verif.Props.Local`) -/

/-- C15. `Trans(p, Erase)` matches exactly when `p` matches, at the same position, and adds no AST. -/
theorem C15_erase (p : Sem) (c o : Ctx)
    (hstack : ∀ c', Outcome.of (p (enter ":base:Trans" c)) = .matched c' → ∃ new, c'.stack = c.stack ++ new) :
    Outcome.of (trans p [erase] c) = .matched o ↔
      ∃ c', Outcome.of (p (enter ":base:Trans" c)) = .matched c' ∧ o = { c' with qty := 1, stack := c.stack } := by
  rw [C14_trans_matched p [erase] c o hstack]
  constructor
  · rintro ⟨c', new, asts, h1, _, h3, rfl⟩
    cases h3 with
    | step ht h3 =>
      cases h3
      simp [erase] at ht
      subst ht
      exact ⟨c', h1, by simp⟩
  · rintro ⟨c', h1, rfl⟩
    obtain ⟨new, hnew⟩ := hstack c' h1
    exact ⟨c', new, [], h1, hnew, .step rfl .done, by simp⟩

/-- C15. `Group(ps)` matches exactly when the sequence `ps` matches, at the same position, and adds one
list-AST that holds exactly the ASTs added by the sequence. -/
theorem C15_group (ps : List Sem) (c o : Ctx)
    (hstack : ∀ c', Seq ps (enter ":base:Group" c) (.matched c') → ∃ new, c'.stack = c.stack ++ new) :
    Outcome.of (group ps c) = .matched o ↔
      ∃ c' new, Seq ps (enter ":base:Group" c) (.matched c') ∧ c'.stack = c.stack ++ new ∧
        o = { c' with qty := 1, stack := c.stack ++
          [{ Ast.zero with cls := ":base:Group", ty := .listOfAst, val := .list new }] } := by
  obtain ⟨r, hr⟩ := Seq.total ps (enter ":base:Group" c)
  rw [group_eq hr]
  constructor
  · intro h
    cases r with
    | matched c' =>
      have hs := hr.matched_status rfl
      obtain ⟨new, hnew⟩ := hstack c' hr
      simp [onceResult, applyTransforms, Outcome.of, hs, hnew, add_lt_false, applyTrs, groupingTransform] at h
      exact ⟨c', new, hr, hnew, by rw [hs]; exact h.symm⟩
    | unmatched => simp [onceResult, Outcome.of] at h
    | failed c' e =>
      have hs := hr.failed_status
      cases e <;> simp [onceResult, Outcome.of, hs] at h
    | panicked p => simp [onceResult, Outcome.of] at h
    | timedOut => simp [onceResult, Outcome.of] at h
  · rintro ⟨c', new, h, hnew, rfl⟩
    have := hr.det h
    subst this
    have hs := h.matched_status rfl
    simp [onceResult, applyTransforms, Outcome.of, hs, hnew, add_lt_false, applyTrs, groupingTransform]

example : ∃ o v, Outcome.of (group [number, alpha] { newStrCtx b!"7x" with stack := [Ast.zero] }) = .matched o ∧
    o.stack = [Ast.zero, v] ∧ (∃ a b, v.val = .list [a, b]) ∧ o.pos = 2 :=
  ⟨_, _, rfl, rfl, ⟨_, _, rfl⟩, rfl⟩
example : ∃ o, Outcome.of (trans number [erase] (newStrCtx b!"7x")) = .matched o ∧ o.stack = [] ∧ o.pos = 1 :=
  ⟨_, rfl, rfl, rfl⟩

end Takenoco
