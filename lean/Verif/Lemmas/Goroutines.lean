import Verif.Spec.Concurrent
import Verif.Lemmas.Concurrent
/-
Goroutines with contexts of their own do not disturb each other.
-/
namespace Takenoco
open Spec
namespace Conc

/-- A goroutine in the shared memory `M`, with `p` still to do; alone, it would be at the same point, with the memory `m`. -/
structure Fits (r : Out (HRes × Mem)) (M : Mem) (p : Prog HRes) (ρ : Ren) (m : Mem) : Prop where
  alike : Alike ResLike ρ m p r
  agree : ∀ a a', ρ a = some a' → ∀ i, M.cell a i = m.cell a' i
  inj : ∀ a b x, ρ a = some x → ρ b = some x → a = b
  bound : ∀ a x, ρ a = some x → a < M.next ∧ x < m.next
  blank : ∀ a i, m.next ≤ a → m.cell a i = default

/-- What a step of a goroutine with the arrays `ρ` may do to the memory. -/
structure Keeps (M M' : Mem) (ρ ρ' : Ren) : Prop where
  next : M.next ≤ M'.next
  cell : ∀ a i, a < M.next → ρ a = none → M'.cell a i = M.cell a i
  fresh : ∀ a x, ρ' a = some x → ρ a = none → M.next ≤ a

theorem Keeps.refl (M : Mem) (ρ : Ren) : Keeps M M ρ ρ := ⟨Nat.le_refl _, fun _ _ _ _ => rfl, fun a x h1 h2 => by rw [h1] at h2; cases h2⟩

theorem fits_step {r : Out (HRes × Mem)} {M : Mem} {p : Prog HRes} {ρ : Ren} {m : Mem} (h : Fits r M p ρ m) :
    ∃ ρ' m', Fits r (p.step M).1 (p.step M).2 ρ' m' ∧ Keeps M (p.step M).1 ρ ρ' := by
  obtain ⟨h1, h2, h3, h4, h5⟩ := h
  cases h1 with
  | ret h => exact ⟨ρ, m, ⟨.ret h, h2, h3, h4, h5⟩, .refl _ _⟩
  | panic => exact ⟨ρ, m, ⟨.panic, h2, h3, h4, h5⟩, .refl _ _⟩
  | timeout => exact ⟨ρ, m, ⟨.timeout, h2, h3, h4, h5⟩, .refl _ _⟩
  | @read _ _ a a' i k _ ha h =>
    refine ⟨ρ, m, ⟨?_, h2, h3, h4, h5⟩, .refl _ _⟩
    show Alike ResLike ρ m (k (M.cell a i)) r
    rw [h2 a a' ha i]
    exact h
  | @write _ _ a a' i x k _ ha h =>
    refine ⟨ρ, m.set a' i x, ⟨h, fun b b' hb j => ?_, h3, h4, fun b j hb => ?_⟩, Nat.le_refl _, fun b j _ hb => ?_, fun a x h1 h2 => by rw [h1] at h2; cases h2⟩
    · show (M.set a i x).cell b j = (m.set a' i x).cell b' j
      unfold Mem.set
      simp only
      by_cases he : b = a
      · subst he
        have : b' = a' := by rw [hb] at ha; injection ha
        subst this
        rw [h2 b b' hb j]
        simp
      · have : b' ≠ a' := fun e => he (h3 b a a' (e ▸ hb) ha)
        rw [if_neg (by simp [he]), if_neg (by simp [this]), h2 b b' hb j]
    · show (m.set a' i x).cell b j = default
      have := (h4 a a' ha).2
      have hb : m.next ≤ b := hb
      unfold Mem.set
      simp only
      rw [if_neg (by omega), h5 b j hb]
    · show (M.set a i x).cell b j = M.cell b j
      unfold Mem.set
      simp only
      rw [if_neg]
      rintro ⟨rfl, _⟩
      rw [hb] at ha
      cases ha
  | @alloc _ _ k _ h =>
    have hn : ρ M.next = none := by
      cases he : ρ M.next with
      | none => rfl
      | some x => exact absurd (h4 _ _ he).1 (Nat.lt_irrefl _)
    refine ⟨ρ.add M.next m.next, { m with next := m.next + 1 }, ⟨h M.next hn, fun b b' hb j => ?_, fun a b x ha hb => ?_, fun a x ha => ?_, fun b j hb => ?_⟩,
      Nat.le_succ _, fun b j hb _ => ?_, fun a x ha hr => ?_⟩
    · show M.grow.cell b j = m.cell b' j
      unfold Ren.add at hb
      unfold Mem.grow
      simp only
      by_cases he : b = M.next
      · rw [if_pos he] at hb
        rw [if_pos he]
        injection hb with hb
        rw [← hb, h5 _ j (Nat.le_refl _)]
      · rw [if_neg he] at hb
        rw [if_neg he, h2 b b' hb j]
    · unfold Ren.add at ha hb
      by_cases h6 : a = M.next <;> by_cases h7 : b = M.next
      · omega
      · rw [if_pos h6] at ha
        rw [if_neg h7] at hb
        injection ha with ha
        have := (h4 b x hb).2
        omega
      · rw [if_neg h6] at ha
        rw [if_pos h7] at hb
        injection hb with hb
        have := (h4 a x ha).2
        omega
      · rw [if_neg h6] at ha
        rw [if_neg h7] at hb
        exact h3 a b x ha hb
    · show a < M.next + 1 ∧ x < m.next + 1
      unfold Ren.add at ha
      by_cases h6 : a = M.next
      · rw [if_pos h6] at ha
        injection ha with ha
        omega
      · rw [if_neg h6] at ha
        have := h4 a x ha
        omega
    · exact h5 b j (Nat.le_of_succ_le hb)
    · show M.grow.cell b j = M.cell b j
      unfold Mem.grow
      simp only
      rw [if_neg (Nat.ne_of_lt hb)]
    · unfold Ren.add at ha
      by_cases h6 : a = M.next
      · omega
      · rw [if_neg h6, hr] at ha
        cases ha

/-- Every goroutine is where it would be alone, and no two of them have an array in common. -/
def Apart (r : Nat → Out (HRes × Mem)) (M : Machine) : Prop :=
  ∃ (ρ : Nat → Ren) (m : Nat → Mem), (∀ t, Fits (r t) M.mem (M.threads t) (ρ t) (m t)) ∧ ∀ t u a x y, ρ t a = some x → ρ u a = some y → t = u

theorem apart_step {r : Nat → Out (HRes × Mem)} {M : Machine} (h : Apart r M) (t : Nat) : Apart r (M.step t) := by
  obtain ⟨ρ, m, h1, h2⟩ := h
  obtain ⟨ρ', m', h3, h4⟩ := fits_step (h1 t)
  refine ⟨fun u => if u = t then ρ' else ρ u, fun u => if u = t then m' else m u, fun u => ?_, fun u v a x y hu hv => ?_⟩
  · by_cases hu : u = t
    · subst hu
      simpa [Machine.step] using h3
    · have hf := h1 u
      simp only [Machine.step, if_neg hu]
      refine ⟨hf.alike, fun a a' ha i => ?_, hf.inj, fun a x ha => ?_, hf.blank⟩
      · rw [h4.cell a i (hf.bound a a' ha).1 ?_, hf.agree a a' ha i]
        cases he : ρ t a with
        | none => rfl
        | some x => exact absurd (h2 u t a _ _ ha he) hu
      · exact ⟨Nat.lt_of_lt_of_le (hf.bound a x ha).1 h4.next, (hf.bound a x ha).2⟩
  · have key : ∀ w z, w ≠ t → ρ' a = some z → ∀ q, ρ w a = some q → False := fun w z hw hz q hq => by
      cases he : ρ t a with
      | none =>
        have := h4.fresh a z hz he
        have := ((h1 w).bound a q hq).1
        omega
      | some p => exact hw (h2 w t a _ _ hq he)
    dsimp only at hu hv
    by_cases h5 : u = t <;> by_cases h6 : v = t
    · rw [h5, h6]
    · rw [if_pos h5] at hu
      rw [if_neg h6] at hv
      exact (key v x h6 hu y hv).elim
    · rw [if_neg h5] at hu
      rw [if_pos h6] at hv
      exact (key u y h5 hv x hu).elim
    · rw [if_neg h5] at hu
      rw [if_neg h6] at hv
      exact h2 u v a x y hu hv

theorem apart_steps {r : Nat → Out (HRes × Mem)} {M : Machine} (h : Apart r M) (order : List Nat) : Apart r (M.steps order) := by
  induction order generalizing M with
  | nil => exact h
  | cons t order ih => exact ih (apart_step h t)

theorem SliceLike.read {ρ : Ren} {M m : Mem} (h : ∀ a a', ρ a = some a' → ∀ i, M.cell a i = m.cell a' i) {s s' : Slice} (hs : SliceLike ρ s s') : M.read s = m.read s' := by
  obtain ⟨a', rfl, ha⟩ := hs
  simp only [Mem.read, h _ _ ha]

theorem CtxLike.view {ρ : Ren} {M m : Mem} (h : ∀ a a', ρ a = some a' → ∀ i, M.cell a i = m.cell a' i) {c c' : HCtx} (hc : CtxLike ρ c c') : c.view M = c'.view m := by
  obtain ⟨s', t', rfl, h1, h2⟩ := hc
  simp only [HCtx.view, h1.read h]
  congr 1
  generalize c.slice = t at h2
  cases h2 with
  | none => rfl
  | other => rfl
  | asts h3 => simp only [Option.map_some, Mem.src, h3.read h]

theorem fits_outcome {r : Out (HRes × Mem)} {M : Mem} {p : Prog HRes} {ρ : Ren} {m : Mem} (h : Fits r M p ρ m) {o : Out PRes} (ho : outcomeOf M p = some o) : o = observe r := by
  have h2 := h.agree
  cases h.alike with
  | @ret _ _ a b h7 =>
    obtain ⟨c, e⟩ := a
    obtain ⟨c', e'⟩ := b
    obtain ⟨h3, h4⟩ := h7
    injection ho with ho
    rw [← ho, observe, h3.view h2]
    simp only at h4
    rw [h4]
  | panic => injection ho with ho; rw [← ho, observe]
  | timeout => injection ho with ho; rw [← ho, observe]
  | read _ _ => cases ho
  | write _ _ => cases ho
  | alloc _ => cases ho

/-! ### Goroutines end -/

theorem steps_cons (M : Machine) (t : Nat) (order : List Nat) : M.steps (t :: order) = (M.step t).steps order := rfl

theorem firstSteps_succ (f : Nat → Nat) (k : Nat) : firstSteps f (k + 1) = f 0 :: firstSteps (fun n => f (n + 1)) k := by
  simp [firstSteps, List.range_succ_eq_map, Function.comp_def]

/-- A goroutine whose turn comes does its next step. -/
theorem next_step {t : Nat} : ∀ (k : Nat) (f : Nat → Nat) (M : Machine), f k = t →
    ∃ j m, ((M.steps (firstSteps f j)).threads t) = ((M.threads t).step m).2
  | 0, f, M, h => by
    refine ⟨1, M.mem, ?_⟩
    rw [firstSteps_succ, steps_cons]
    subst h
    simp [firstSteps, Machine.steps, Machine.step]
  | k + 1, f, M, h => by
    by_cases h0 : f 0 = t
    · refine ⟨1, M.mem, ?_⟩
      rw [firstSteps_succ, steps_cons, h0]
      simp [firstSteps, Machine.steps, Machine.step]
    · obtain ⟨j, m, hj⟩ := next_step k (fun n => f (n + 1)) (M.step (f 0)) h
      refine ⟨j + 1, m, ?_⟩
      rw [firstSteps_succ, steps_cons, hj]
      simp only [Machine.step, if_neg (Ne.symm h0)]

theorem fair_later {f : Nat → Nat} {t : Nat} (h : Fair f t) (j : Nat) : Fair (fun n => f (n + j)) t := fun n => by
  obtain ⟨k, h1, h2⟩ := h (n + j)
  exact ⟨k - j, by omega, by simp only; rw [show k - j + j = k by omega, h2]⟩

theorem firstSteps_add (f : Nat → Nat) (j k : Nat) : firstSteps f (j + k) = firstSteps f j ++ firstSteps (fun n => f (n + j)) k := by
  simp only [firstSteps, List.range_add, List.map_append, List.map_map, Function.comp_def]
  simp [Nat.add_comm]

theorem steps_append (M : Machine) (a b : List Nat) : M.steps (a ++ b) = (M.steps a).steps b := by simp [Machine.steps]

theorem ends {t : Nat} (p : Prog HRes) : ∀ (f : Nat → Nat) (M : Machine), M.threads t = p → Fair f t →
    ∃ k, ∀ m, (outcomeOf m ((M.steps (firstSteps f k)).threads t)).isSome := by
  have next : ∀ (f : Nat → Nat) (M : Machine), Fair f t → (∀ (m : Mem) (f : Nat → Nat) (N : Machine), N.threads t = ((M.threads t).step m).2 → Fair f t →
      ∃ k, ∀ m, (outcomeOf m ((N.steps (firstSteps f k)).threads t)).isSome) → ∃ k, ∀ m, (outcomeOf m ((M.steps (firstSteps f k)).threads t)).isSome := by
    intro f M hf ih
    obtain ⟨k, -, hk⟩ := hf 0
    obtain ⟨j, m, hj⟩ := next_step k f M hk
    obtain ⟨k', h⟩ := ih m (fun n => f (n + j)) (M.steps (firstSteps f j)) hj (fair_later hf j)
    exact ⟨j + k', fun m => by rw [firstSteps_add, steps_append]; exact h m⟩
  induction p with
  | ret a => exact fun f M h _ => ⟨0, fun m => by simp [firstSteps, Machine.steps, h, outcomeOf]⟩
  | panic x => exact fun f M h _ => ⟨0, fun m => by simp [firstSteps, Machine.steps, h, outcomeOf]⟩
  | timeout => exact fun f M h _ => ⟨0, fun m => by simp [firstSteps, Machine.steps, h, outcomeOf]⟩
  | read a i k ih => exact fun f M h hf => next f M hf fun m f N hN => ih (m.cell a i) f N (by rw [hN, h]; rfl)
  | write a i x k ih => exact fun f M h hf => next f M hf fun m f N hN => ih f N (by rw [hN, h]; rfl)
  | alloc k ih => exact fun f M h hf => next f M hf fun m f N hN => ih m.next f N (by rw [hN, h]; rfl)

theorem done_step {t : Nat} {M : Machine} (h : ∀ m, (outcomeOf m (M.threads t)).isSome) (u : Nat) : (M.step u).threads t = M.threads t := by
  have h := h M.mem
  simp only [Machine.step]
  split
  · rename_i he
    subst he
    cases hp : M.threads t with
    | ret a => rfl
    | panic x => rfl
    | timeout => rfl
    | read a i k => rw [hp] at h; cases h
    | write a i x k => rw [hp] at h; cases h
    | alloc k => rw [hp] at h; cases h
  · rfl

theorem done_steps {t : Nat} : ∀ (order : List Nat) {M : Machine}, (∀ m, (outcomeOf m (M.threads t)).isSome) → (M.steps order).threads t = M.threads t
  | [], _, _ => rfl
  | u :: order, M, h => by
    have h1 := done_step h u
    rw [steps_cons, done_steps order (by rw [h1]; exact h), h1]

end Conc
end Takenoco
