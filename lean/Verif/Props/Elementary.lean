import Verif.Lemmas.Terminals
import Verif.Lemmas.Den
import Verif.Model.StrParsers
import Verif.Spec.Combinators
/-
Property C77: the elementary parsers of the base package, and the choice at construction time.
-/
namespace Takenoco
open Spec

/-- **C77.** `Error` always fails with its message, where it stands. -/
theorem C77_error (msg : String) (c : Ctx) : ∃ o, Outcome.of (errorP msg c) = .failed o (some (.msg msg)) ∧ o.pos = c.pos ∧ o.stack = c.stack := by
  rw [errorP_eq]; exact ⟨_, rfl, rfl, rfl⟩

/-- **C77.** `Unmatched` never matches. -/
theorem C77_unmatched (c : Ctx) : Outcome.of (unmatchedP c) = .unmatched := by rw [unmatchedP_eq]; rfl

/-- **C77.** `Zero` always matches where it stands and adds its ASTs, in their order, with nothing but the place in the source replaced. -/
theorem C77_zero (asts : List Ast) (c : Ctx) : ∃ o new, Outcome.of (zeroP asts c) = .matched o ∧ o.pos = c.pos ∧ o.stack = c.stack ++ new ∧
    new.length = asts.length ∧
    ∀ i (h : i < asts.length) (h' : i < new.length), new[i].pos = c.pos ∧ new[i].opCode = asts[i].opCode ∧ new[i].cls = asts[i].cls ∧ new[i].ty = asts[i].ty ∧
      new[i].val = asts[i].val := by
  rw [zeroP_eq]
  exact ⟨_, _, rfl, rfl, rfl, by simp, fun i h h' => by simp⟩

/-- **C77.** `Start` matches exactly at the beginning of the source, without moving and adding nothing. -/
theorem C77_start (c : Ctx) : (c.pos = 0 → ∃ o, Outcome.of (startP c) = .matched o ∧ o.pos = 0 ∧ o.stack = c.stack) ∧
    (c.pos ≠ 0 → Outcome.of (startP c) = .unmatched) := by
  rw [startP_eq]
  constructor
  · intro h; rw [if_pos h]; exact ⟨_, rfl, h, rfl⟩
  · intro h; rw [if_neg h]; rfl

/-- **C77.** `If` is one of its two parsers. -/
theorem C77_if (p q : Sem) : ifP true p q = p ∧ ifP false p q = q := ⟨rfl, rfl⟩

/-- **C77.** `Indirect` ends as its parser does: it matches at the same place with the same ASTs, is unmatched with it, and fails with the same error. -/
theorem C77_indirect (p : Sem) (c : Ctx) :
    (∀ o, Outcome.of (p c) = .matched o → ∃ o', Outcome.of (indirect p c) = .matched o' ∧ o'.pos = o.pos ∧ o'.stack = o.stack ∧ o'.str = o.str ∧ o'.tag = o.tag) ∧
    (Outcome.of (p c) = .unmatched → Outcome.of (indirect p c) = .unmatched) ∧
    (∀ o e, Outcome.of (p c) = .failed o e → ∃ o', Outcome.of (indirect p c) = .failed o' e ∧ o'.pos = o.pos ∧ o'.stack = o.stack) ∧
    (∀ x, p c = .panic x → indirect p c = .panic x) ∧ (p c = .timeout → indirect p c = .timeout) := by
  unfold indirect lightParser
  cases h : p c with
  | panic x => simp [Outcome.of]
  | timeout => simp [Outcome.of]
  | ok r =>
    obtain ⟨o, e⟩ := r
    cases e with
    | some e => cases hs : o.status <;> simp [Outcome.of, fixStatus, hs]
    | none => cases hs : o.status <;> simp [Outcome.of, fixStatus, hs]

/-- An AST inserted behind `ab`. -/
example : ∃ o new, Outcome.of (zeroP [{ Ast.zero with cls := "x", ty := .string, val := .str (b! "v") }] { newStrCtx (b! "abc") with pos := 2 }) = .matched o ∧
    o.stack = new ∧ new.length = 1 := by
  obtain ⟨o, new, h1, _, h2, h3, _⟩ := C77_zero [{ Ast.zero with cls := "x", ty := .string, val := .str (b! "v") }] { newStrCtx (b! "abc") with pos := 2 }
  exact ⟨o, new, h1, h2, h3⟩

/-- `Start` does not match behind the first character. -/
example : Outcome.of (startP { newStrCtx (b! "abc") with pos := 1 }) = .unmatched := (C77_start _).2 (by decide)

/-- `Indirect` of a parser that matches. -/
example : ∃ o, Outcome.of (indirect (zeroP []) (newStrCtx (b! "a"))) = .matched o := by
  obtain ⟨o, _, h, _⟩ := C77_zero [] (newStrCtx (b! "a"))
  obtain ⟨o', h', _⟩ := (C77_indirect (zeroP []) (newStrCtx (b! "a"))).1 o h
  exact ⟨o', h'⟩

#print axioms C77_error
#print axioms C77_unmatched
#print axioms C77_zero
#print axioms C77_start
#print axioms C77_if
#print axioms C77_indirect

end Takenoco
