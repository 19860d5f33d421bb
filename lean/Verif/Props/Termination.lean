import Verif.Lemmas.TermTerminals
import Verif.Lemmas.FormulaRules
/-
C54: well-formed grammars terminate.
-/
namespace Takenoco
open Spec Gram

/-! ### C54: termination -/

/-- **C54.** If every unbounded repetition consumes input in each iteration, and no function given to `Indirect` reaches
itself before input is consumed, then the parser terminates (returns or panics) on every source, from every position in it. -/
theorem C54_terminates {env : Env} {S : Sources} {rank : Nat → Nat} {eater : Nat → Bool} (henv : StopsEnv env S rank eater)
    {ind : Bool} {r : Nat} {e : Bool} {g : Gram} (hg : Stops env S rank eater ind r e (.gram g)) (c : Ctx) (hc : Inside S c) :
    ∃ res, res ≠ .timeout ∧ ∃ N, ∀ n, N ≤ n → run env n g c = res := by
  have h := form_ends henv hg (S.size c) c hc (by omega)
  have hne : den env g c ≠ .timeout := fun h' => by rw [h'] at h; exact h
  exact ⟨_, hne, run_of_den rfl hne⟩

/-- C54. A match moves the position forward in the same source; by at least one if the grammar is marked as consuming. -/
theorem C54_moves {env : Env} {S : Sources} {rank : Nat → Nat} {eater : Nat → Bool} (henv : StopsEnv env S rank eater)
    {ind : Bool} {r : Nat} {e : Bool} {g : Gram} (hg : Stops env S rank eater ind r e (.gram g)) (c : Ctx) (hc : Inside S c)
    (n : Nat) (o : Ctx) (h : Outcome.of (run env n g c) = .matched o) :
    c.pos + e.toNat ≤ o.pos ∧ o.pos ≤ S.size c ∧ o.str = c.str ∧ o.slice = c.slice := by
  have h1 := form_ends henv hg (S.size c) c hc (by omega)
  have h2 : den env g c = run env n g c := by
    rcases den_lim env g c with hd | ⟨N, hN⟩
    · rw [hd] at h1; exact h1.elim
    · have h3 := hN (max n N) (by omega)
      rw [← h3]
      rcases run_le env (Nat.le_max_left n N) g c with h4 | h4
      · rw [h4] at h; cases h
      · exact h4.symm
  rw [h2, h] at h1
  exact h1.2

/-- C54. The terminals of package string, and those of package base, can be used in such grammars. -/
theorem C54_string_terminal {env : Env} {rank : Nat → Nat} {eater : Nat → Bool} {ind : Bool} {r : Nat} {p : Sem}
    (h : StrTerm (fun _ => True) p) : Stops env strings rank eater ind r false (.gram (.prim p)) :=
  have := steps_prim (S := strings) (k := 0) fun c hc => strTerm_steps h c hc.2.2
  .prim this.1 this.2

/-- C54. Terminals of package string that consume input. -/
theorem C54_string_eater {env : Env} {rank : Nat → Nat} {eater : Nat → Bool} {ind : Bool} {r : Nat} {p : Sem}
    (h : EatsStr p) : Stops env strings rank eater ind r true (.gram (.prim p)) :=
  have := steps_prim (S := strings) (k := 1) fun c hc => eatsStr_steps h c hc.2.2
  .prim this.1 this.2

/-- C54. Terminals of package object that consume input. -/
theorem C54_object_eater {env : Env} {rank : Nat → Nat} {eater : Nat → Bool} {ind : Bool} {r : Nat} {p : Sem}
    (h : EatsObj p) : Stops env objects rank eater ind r true (.gram (.prim p)) :=
  have := steps_prim (S := objects) (k := 1) fun c hc => eatsObj_steps h c hc
  .prim this.1 this.2

/-- C54. The other terminals of package object, and those of package base. -/
theorem C54_object_terminal {env : Env} {rank : Nat → Nat} {eater : Nat → Bool} {ind : Bool} {r : Nat} {p : Sem}
    (h : p = objEnd ∨ (∃ vs, p = objSeq vs) ∨ BaseTerm (fun _ => True) p) : Stops env objects rank eater ind r false (.gram (.prim p)) := by
  have := steps_prim (S := objects) (k := 0) (p := p) fun c hc => by
    rcases h with rfl | ⟨vs, rfl⟩ | h
    · exact objEnd_steps c hc
    · exact (objSeq_steps hc vs).mono (Nat.zero_le _)
    · exact baseTerm_steps h _ c hc.2.2
  exact .prim this.1 this.2

/-! ### Without the conditions -/

/-- C54. Left recursion does not terminate, on any source. -/
theorem C54_left_recursion_diverges (tl : List Gram) (alts : List Gram) (env : Env)
    (h : env 0 = .first (.flatGroup (.indirect 0 :: tl) :: alts)) (n : Nat) (c : Ctx) : run env n (.indirect 0) c = .timeout := by
  have out : ∀ x : Out PRes, Outcome.of x = .timedOut → x = .timeout := by
    intro x hx
    match x, hx with
    | .timeout, _ => rfl
    | .panic _, h => cases h
    | .ok (_, some _), h => cases h
    | .ok (o, none), h => simp only [Outcome.of] at h; split at h <;> cases h
  have hl : ∀ (p : Sem) (c : Ctx), p c = .timeout → indirect p c = .timeout := fun p c hp => by simp [indirect, lightParser, hp]
  induction n using Nat.strongRecOn generalizing c with
  | ind n ih =>
    match n with
    | 0 => rfl
    | 1 => exact hl _ _ rfl
    | 2 =>
      refine hl _ _ (out _ ?_)
      rw [h]
      simp only [run, List.map_cons]
      rw [first_of (by simp) (.take (r := .timedOut) (by rfl) (by simp))]
      rfl
    | n + 3 =>
      refine hl _ _ (out _ ?_)
      rw [h]
      simp only [run, List.map_cons]
      have : ∀ c, Outcome.of (flatGroup (run env n (.indirect 0) :: tl.map (run env n)) c) = .timedOut := by
        intro c
        rw [flatGroup_of (.stop (r := .timedOut) (by rw [ih n (by omega)]; rfl) (by simp))]
        rfl
      rw [first_of (by simp) (.take (this _) (by simp))]
      rfl

/-! ### Cases -/

theorem noEnv_stops (S : Sources) : StopsEnv noEnv S (fun _ => 0) (fun _ => false) :=
  fun _ => .prim (fun c _ h => by rw [unmatchedP_eq] at h; cases h)
    (fun c o _ h ho => by rw [unmatchedP_eq] at h; cases h; cases ho)

/-- A pure transformer given as a function terminates if it does so for every argument. -/
theorem fn_halts {env : Env} {t : TSem} (h : ∀ c l, t c l ≠ .timeout) : ∀ c l, ∃ n, runTr env n (.fn t) c l ≠ .timeout :=
  fun c l => ⟨1, h c l⟩

/-- Nested brackets: `brackets = ( "[" brackets* "]" | number+ )`. The function is used within itself, after the bracket. -/
def brackets : Env := fun _ =>
  .first [.flatGroup [erased (.prim (seqS (b! "["))), star [.indirect 0], .prim (seqS (b! "]"))], plus [.prim number]]

theorem brackets_stop : StopsEnv brackets strings (fun _ => 0) (fun _ => true) := fun _ => by
  refine .first (by simp) fun g hg => ?_
  simp only [List.mem_cons, List.not_mem_nil, or_false] at hg
  rcases hg with rfl | rfl
  · refine .flatGroup (.eat (.trans (C54_string_eater (.seq _ (by decide))) ?_) (r' := 1) (.keep ?_ (.keep (C54_string_terminal (.seq _)) .nil)))
    · simp only [List.mem_singleton]; rintro t rfl; exact fn_halts fun _ _ => by simp [erase]
    exact .repeat (e := true) (.eat (.indirect (by decide)) (r' := 0) .nil) (.inl rfl) (fun h => by cases h)
  · exact .repeat (.eat (C54_string_eater .number) (r' := 0) .nil) (.inl rfl) (fun _ => ⟨rfl, by decide⟩)

/-- The nested brackets are parsed in finite time, whatever the text. -/
example (s : Bytes) : ∃ res, res ≠ .timeout ∧ ∃ N, ∀ n, N ≤ n → run brackets n (.indirect 0) (newStrCtx s) = res :=
  C54_terminates brackets_stop (.indirect (by decide : 0 < 1)) _ ⟨rfl, trivial, Nat.zero_le _⟩

example : ∃ o, Outcome.of (run brackets 20 (.indirect 0) (newStrCtx (b! "[1[23]]"))) = .matched o ∧ o.pos = 7 := by
  exact ⟨_, by cbv, rfl⟩

/-- A grammar over objects: all elements up to the end. -/
example (src : SliceSrc) (h : ∀ v w, src.itemEquals v w ≠ .timeout) :
    ∃ res, res ≠ .timeout ∧ ∃ N, ∀ n, N ≤ n →
      run noEnv n (.flatGroup [star [.prim (objClassN [.nil])], .prim objEnd]) { newStrCtx [] with slice := some src } = res := by
  refine C54_terminates (S := objects) (noEnv_stops _) (ind := false) (r := 0) (e := false) (.flatGroup (.keep ?_ (.keep (C54_object_terminal (.inl rfl)) .nil))) _
    ⟨rfl, fun s hs => by cases hs; exact h, Nat.zero_le _⟩
  exact .repeat (e := true) (.eat (C54_object_eater (.objClassN _)) (r' := 0) .nil) (.inl rfl) (fun h => by cases h)

/-- `list = list "," | number` is left recursive. -/
example (s : Bytes) (n : Nat) :
    run (fun _ => .first [.flatGroup [.indirect 0, .prim (seqS (b! ","))], .prim number]) n (.indirect 0) (newStrCtx s) = .timeout :=
  C54_left_recursion_diverges [.prim (seqS (b! ","))] [.prim number] _ rfl n _

end Takenoco
