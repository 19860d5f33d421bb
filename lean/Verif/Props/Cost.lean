import Verif.Lemmas.CostLower
import Verif.Lemmas.TermTerminals
/-
C86: how many parser calls a parse needs.
-/
namespace Takenoco
open Spec Trace

/-! ### C86: the number of parser calls -/

/-- **C86.** A grammar with `Work tenv S e w` makes at most `w n` parser calls on a source of size `n`, whatever the source, the
position it is called at, and the calls before; also when it ends with an error or a panic. -/
theorem C86_calls {tenv : TEnv} {S : Sources} {e : Bool} {w : Nat → Nat} {g : TGram} (h : Work tenv S e w (.gram g)) (N : Nat) (c : Ctx)
    (hc : Inside S c) (s : Log) : callCount (g.run tenv N c s).2.events ≤ callCount s.events + w (S.size c) :=
  (work_bounded h (S.size c) N c hc rfl s).1

/-- **C86.** Such a bound is polynomial in the size of the source: without recursion through `Indirect`, backtracking is never
exponential. -/
theorem C86_polynomial {tenv : TEnv} {S : Sources} {e : Bool} {w : Nat → Nat} {f : TForm} (h : Work tenv S e w f) :
    ∃ C d : Nat, ∀ n, w n ≤ C * (n + 1) ^ d := by
  have one : ∀ (w : Nat → Nat) (C d : Nat), (∀ n, w n ≤ C * (n + 1) ^ d) → ∀ n, 1 + w n ≤ (C + 1) * (n + 1) ^ d := fun w C d h n => by
    have := h n
    have : 1 ≤ (n + 1) ^ d := Nat.one_le_pow _ _ (by omega)
    rw [Nat.succ_mul]; omega
  have sum : ∀ (w w' : Nat → Nat) (C d C' d' : Nat), (∀ n, w n ≤ C * (n + 1) ^ d) → (∀ n, w' n ≤ C' * (n + 1) ^ d') →
      ∀ n, w n + w' n ≤ (C + C') * (n + 1) ^ (d + d') := fun w w' C d C' d' h h' n => by
    have h1 : (n + 1) ^ d ≤ (n + 1) ^ (d + d') := Nat.pow_le_pow_right (by omega) (by omega)
    have h2 : (n + 1) ^ d' ≤ (n + 1) ^ (d + d') := Nat.pow_le_pow_right (by omega) (by omega)
    rw [Nat.add_mul]
    exact Nat.add_le_add (Nat.le_trans (h n) (Nat.mul_le_mul_left _ h1)) (Nat.le_trans (h' n) (Nat.mul_le_mul_left _ h2))
  have times : ∀ (w : Nat → Nat) (C d k : Nat), (∀ n, w n ≤ C * (n + 1) ^ d) → ∀ n, k * w n ≤ (k * C) * (n + 1) ^ d := fun w C d k h n => by
    rw [Nat.mul_assoc]; exact Nat.mul_le_mul_left _ (h n)
  induction h with
  | prim _ => exact ⟨1, 0, fun n => by simp⟩
  | forget _ ih => exact ih
  | nil => exact ⟨0, 0, fun n => by simp⟩
  | none => exact ⟨0, 0, fun n => by simp⟩
  | cons _ _ ih ih' => obtain ⟨C, d, h⟩ := ih; obtain ⟨C', d', h'⟩ := ih'; exact ⟨_, _, sum _ _ _ _ _ _ h h'⟩
  | alt _ _ ih ih' => obtain ⟨C, d, h⟩ := ih; obtain ⟨C', d', h'⟩ := ih'; exact ⟨_, _, sum _ _ _ _ _ _ h h'⟩
  | flatGroup _ ih => obtain ⟨C, d, h⟩ := ih; exact ⟨_, _, one _ _ _ h⟩
  | group _ ih => obtain ⟨C, d, h⟩ := ih; exact ⟨_, _, one _ _ _ h⟩
  | first _ _ ih => obtain ⟨C, d, h⟩ := ih; exact ⟨_, _, one _ _ _ h⟩
  | lookAhead _ ih => obtain ⟨C, d, h⟩ := ih; exact ⟨_, _, one _ _ _ h⟩
  | lookAheadN _ ih => obtain ⟨C, d, h⟩ := ih; exact ⟨_, _, one _ _ _ h⟩
  | lookBehind _ _ ih => obtain ⟨C, d, h⟩ := ih; exact ⟨_, _, times _ _ _ _ (one _ _ _ h)⟩
  | lookBehindN _ _ ih => obtain ⟨C, d, h⟩ := ih; exact ⟨_, _, times _ _ _ _ (one _ _ _ h)⟩
  | times _ _ _ ih => obtain ⟨C, d, h⟩ := ih; exact ⟨_, _, one _ _ _ (times _ _ _ _ h)⟩
  | loop _ _ _ ih =>
    obtain ⟨C, d, h⟩ := ih
    refine ⟨C + 1, d + 1, one _ _ _ fun n => ?_⟩
    rw [Nat.pow_succ, ← Nat.mul_assoc, Nat.mul_comm _ (n + 1)]
    exact Nat.mul_le_mul_left _ (h n)
  | trans _ ih => obtain ⟨C, d, h⟩ := ih; exact ⟨_, _, one _ _ _ h⟩
  | «match» => exact ⟨1, 0, fun n => by simp⟩
  | indirect _ ih => obtain ⟨C, d, h⟩ := ih 0; exact ⟨_, _, one _ _ _ h⟩
  | debug _ ih => obtain ⟨C, d, h⟩ := ih; exact ⟨_, _, one _ _ _ h⟩

/-- C86. The terminals of package string can be used in such grammars. -/
theorem C86_terminal {tenv : TEnv} {i : Option Info} {cls : Option String} {p : Sem} (h : StrTerm (fun _ => True) p) :
    Work tenv strings false (fun _ => 1) (.gram (.prim i cls p)) :=
  .prim (steps_prim (S := strings) (k := 0) fun c hc => strTerm_steps h c hc.2.2).2

/-- C86. Terminals of package string that consume input. -/
theorem C86_eater {tenv : TEnv} {i : Option Info} {cls : Option String} {p : Sem} (h : EatsStr p) :
    Work tenv strings true (fun _ => 1) (.gram (.prim i cls p)) :=
  .prim (steps_prim (S := strings) (k := 1) fun c hc => eatsStr_steps h c hc.2.2).2

/-! ### With recursion -/

/-- **C86.** With recursion the number of calls may be exponential: on `aⁿdcⁿ`, which the grammar accepts, the function given to
`Indirect` is called at least `2ⁿ⁺¹ - 2` times. -/
theorem C86_exponential (i : Info) (n N : Nat) (hN : 3 * n + 3 ≤ N) (s : Log) :
    callCount s.events + (2 ^ (n + 1) - 2) ≤ callCount ((slow i).run (fun _ _ => slow i) N (newStrCtx (slowText n)) s).2.events ∧
      ∃ o, ((slow i).run (fun _ _ => slow i) N (newStrCtx (slowText n)) s).1 = .ok (o, none) ∧ o.status = .matched ∧ o.pos = 2 * n + 1 := by
  obtain ⟨h1, ⟨o, e⟩, h2, h3, h4, -, pre, h5, h6⟩ := slow_lower i n N hN (newStrCtx (slowText n)) [] ⟨rfl, rfl, [], by simp [newStrCtx], rfl⟩ s
  simp only at h3 h4 h5 h6
  subst h3
  refine ⟨h1, o, h2, h4, ?_⟩
  rw [h6, show pre = slowText n by simpa [newStrCtx] using h5.symm]
  simp [slowText]; omega

/-! ### Cases -/

/-- `Repeat(0, -1)(First(FlatGroup(Repeat(0, -1)("a"), "b"), "a"))`: quadratic backtracking. -/
def backtracking (i : Info) : TGram :=
  .repeat (some i) ⟨0, -1⟩ [.first (some i) [
    .flatGroup (some i) [.repeat (some i) ⟨0, -1⟩ [.prim (some i) none (seqS (b! "a"))], .prim (some i) none (seqS (b! "b"))],
    .prim (some i) none (seqS (b! "a"))]]

theorem backtracking_work (i : Info) : Work (fun _ _ => backtracking i) strings false
    (fun n => 1 + (n + 1) * (1 + (1 + (1 + (n + 1) * (1 + 0) + (1 + 0)) + (1 + 0)) + 0)) (.gram (backtracking i)) := by
  have a : EatsStr (seqS (b! "a")) := .seq _ (by decide)
  have b : EatsStr (seqS (b! "b")) := .seq _ (by decide)
  refine .loop (by decide) (.cons (e := true) (e' := false) (.first (by simp) (.alt (e := true) (e' := true) (.flatGroup ?_) (.alt (e := true) (e' := true) (C86_eater a) .none))) .nil) (by simp)
  exact .cons (e := false) (e' := true) (.loop (by decide) (.cons (e := true) (e' := false) (C86_eater a) .nil) (by simp))
    (.cons (e := true) (e' := false) (C86_eater b) .nil)

/-- At most `(n + 4)²` calls on a text of `n` bytes. -/
example (i : Info) (N : Nat) (t : Bytes) :
    callCount ((backtracking i).run (fun _ _ => backtracking i) N (newStrCtx t) ⟨0, []⟩).2.events ≤ (t.length + 4) * (t.length + 4) := by
  have := C86_calls (backtracking_work i) N (newStrCtx t) ⟨rfl, trivial, Nat.zero_le _⟩ ⟨0, []⟩
  refine Nat.le_trans this ?_
  have h : strings.size (newStrCtx t) = t.length := rfl
  rw [h, show callCount (⟨0, []⟩ : Log).events = 0 from rfl]
  generalize t.length = n
  simp only [Nat.add_mul, Nat.mul_add, Nat.mul_one]
  omega

/-- On `aaaa` it needs 41 calls. -/
example : callCount ((backtracking ⟨0, "", 0, ""⟩).run (fun _ _ => backtracking ⟨0, "", 0, ""⟩) 20 (newStrCtx (b! "aaaa")) ⟨0, []⟩).2.events = 41 := by
  cbv

/-- The recursive grammar on `aaadccc`. -/
example : callCount ((slow ⟨0, "", 0, ""⟩).run (fun _ _ => slow ⟨0, "", 0, ""⟩) 20 (newStrCtx (b! "aaadccc")) ⟨0, []⟩).2.events = 14 := by
  cbv

end Takenoco
