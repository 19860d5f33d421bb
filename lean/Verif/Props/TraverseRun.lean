import Verif.Lemmas.TraverseRun
/-
C80: what `Ast.Traverse` returns, for all callbacks.
-/
namespace Takenoco
open Spec
variable {σ T E : Type}

/-- **C80**: the traversal ends this way - returning these values, or panicking - exactly if the rules of `Traversal` say so. -/
theorem C80_traverse (v : Visitor σ T E) (w : σ) (a : Ast) (o : Out (σ × Visited T E)) (ho : o ≠ .timeout) :
    (∃ n, traverse v n w a = o) ↔ Traversal v w a o := by
  constructor
  · rintro ⟨n, h⟩; exact traverse_follows v n w a o h ho
  · intro h; obtain ⟨N, hN⟩ := traversal_reached h; exact ⟨N, hN N (Nat.le_refl _)⟩

/-- **C80**: and it is the same from some depth on. -/
theorem C80_reached {v : Visitor σ T E} {w : σ} {a : Ast} {o : Out (σ × Visited T E)} (h : Traversal v w a o) : ∃ N, ∀ n, N ≤ n → traverse v n w a = o :=
  traversal_reached h

/-- The rules leave no choice. -/
theorem C80_deterministic {v : Visitor σ T E} {w : σ} {a : Ast} {o o' : Out (σ × Visited T E)} (h : Traversal v w a o) (h' : Traversal v w a o') : o = o' := by
  obtain ⟨N, hN⟩ := traversal_reached h
  obtain ⟨M, hM⟩ := traversal_reached h'
  rw [← hN (max N M) (by omega), hM (max N M) (by omega)]

/-- **C80**, rewriting: callbacks that replace each node on the way back rebuild the tree from the leaves upwards. Increments and opcodes
that they return are ignored below the root. -/
theorem C80_rewrite {v : Visitor σ T E} {f : Ast → Ast} {mode : Ast → WayThereMode} (hv : ReplacesNodes v f mode) (hm : ∀ a, mode a ≠ .last) {a : Ast} (ht : Tagged a) :
    ∃ b, Rebuilt f (fun a => mode a = .lazy) a b ∧
      ∀ w, ∃ w' pc op, ∃ N, ∀ n, N ≤ n → traverse v n w a = .ok (w', ⟨b, pc, op, none, none⟩) := by
  obtain ⟨b, hb⟩ := rebuilt_exists f (fun a => mode a = .lazy) ht
  refine ⟨b, hb, fun w => ?_⟩
  obtain ⟨w', pc, op, h⟩ := rebuilt_traversal hv hm hb w
  exact ⟨w', pc, op, traversal_reached h⟩

/-! ### Programs -/

/-- An instruction. -/
private def instr (i : Nat) : Ast := { opCode := i.toUInt64, cls := "", ty := .nil, val := .nil, pos := 0, len := 0 }
/-- A list of instructions. -/
private def prog (l : List Ast) : Ast := { opCode := 100, cls := "", ty := .listOfAst, pos := 0, len := 0, val := .list l }

/-- An interpreter with a counter: 1 adds one; 2 goes back to the first instruction while the counter is less than five; 3 leaves the
program; 4 goes back to the first instruction; 5 jumps before the first instruction; 6 skips the next instruction. -/
private def machine : Visitor Nat Nat String where
  there w a := .ok (w, a, if a.opCode = 100 then .last else .none, none)
  back w a :=
    if a.opCode = 1 then .ok (w + 1, instr (w + 1), 0, .nop, none, none)
    else if a.opCode = 2 then (if w < 5 then .ok (w, a, 0, .continue_, none, none) else .ok (w, a, 0, .other, none, none))
    else if a.opCode = 3 then .ok (w, a, 0, .break_, none, none)
    else if a.opCode = 4 then .ok (w, a, 0, .continue_, none, none)
    else if a.opCode = 5 then .ok (w, a, -1, .continue_, none, none)
    else if a.opCode = 6 then .ok (w, a, 1, .other, none, none)
    else .ok (w, a, 0, .nop, none, none)
  childrenErr w _ _ _ _ := .ok w

/-- A loop that runs five times; the result is a list with the result of the last instruction that was no jump. -/
example : traverse machine 20 0 (prog [instr 1, instr 2]) = .ok (5, { ast := prog [instr 5], pcIncr := 0, op := .nop, thrown := none, err := none }) := rfl
/-- `Break` leaves the rest out. -/
example : traverse machine 20 0 (prog [instr 1, instr 3, instr 1]) = .ok (1, { ast := prog [instr 1], pcIncr := 0, op := .nop, thrown := none, err := none }) := rfl
/-- An increment skips an instruction. -/
example : traverse machine 20 0 (prog [instr 6, instr 1, instr 7]) = .ok (0, { ast := prog [instr 7], pcIncr := 0, op := .nop, thrown := none, err := none }) := rfl
/-- A program of jumps only returns a list with the zero AST, which was in no tree. -/
example : traverse machine 20 0 (prog [instr 3]) = .ok (0, { ast := prog [Ast.zero], pcIncr := 0, op := .nop, thrown := none, err := none }) := rfl

/-- **C80**, programs: a jump before the first instruction panics. -/
theorem C80_jump_panics : ∃ (v : Visitor Nat Nat String) (a : Ast), Traversal v 0 a (.panic .index) :=
  ⟨machine, prog [instr 5], (C80_traverse _ _ _ _ (by simp)).1 ⟨3, rfl⟩⟩

/-- **C80**, programs: a program can run forever. -/
theorem C80_forever : ∃ (v : Visitor Nat Nat String) (a : Ast), Tagged a ∧ (∀ n w, traverse v n w a = .timeout) ∧ ∀ w o, ¬ Traversal v w a o := by
  have key : ∀ n w, traverse machine n w (prog [instr 4]) = .timeout := by
    have loop : ∀ n k w buf, lastLoop machine (traverse machine n) (prog [instr 4]) [instr 4] k w buf 0 = .timeout := by
      intro n k
      induction k with
      | zero => intro w buf; rfl
      | succ k ih =>
        intro w buf
        cases n with
        | zero => rfl
        | succ n => exact ih w buf
    intro n w
    cases n with
    | zero => rfl
    | succ n => exact loop n n w Ast.zero
  refine ⟨machine, prog [instr 4], .list rfl rfl (fun x hx => ?_), key, fun w o h => ?_⟩
  · rw [List.mem_singleton] at hx; subst hx; exact .leaf (by decide) (by decide)
  · have h1 : o = .timeout := by
      obtain ⟨N, hN⟩ := traversal_reached h
      rw [← hN N (Nat.le_refl _), key]
    subst h1
    exact absurd h traversal_no_timeout

/-! ### A failing child -/

/-- Callbacks that rename each node on the way back and fail at the instruction 2; they note the child that is reported. -/
private def failing : Visitor (List Ast) Nat String where
  there w a := .ok (w, { a with cls := "there" }, .none, none)
  back w a := if a.opCode = 2 then .ok (w, { a with cls := "back" }, 3, .break_, none, some "no") else .ok (w, a, 0, .nop, none, none)
  childrenErr w _ child _ _ := .ok (w ++ [child])

/-- In a list the child is reported as it was before the traversal, in a pair as it was returned; increment and opcode are not passed on. -/
example : ∃ s, traverse failing 20 [] (prog [instr 1, instr 2]) = .ok ([instr 2], { ast := s, pcIncr := 0, op := .nop, thrown := none, err := some "no" }) :=
  ⟨_, rfl⟩
example : ∃ s, traverse failing 20 [] { instr 9 with ty := .astCons, val := .cons (instr 1) (instr 2) } =
    .ok ([{ instr 2 with cls := "back" }], { ast := s, pcIncr := 0, op := .nop, thrown := none, err := some "no" }) := ⟨_, rfl⟩

/-! ### Rewriting -/

/-- Callbacks that add one to the opcode of each node. -/
private def adding : Visitor Nat Nat String where
  there w a := .ok (w, a, .none, none)
  back w a := .ok (w + 1, { a with opCode := a.opCode + 1 }, 0, .nop, none, none)
  childrenErr w _ _ _ _ := .ok w

example : ReplacesNodes adding (fun a => { a with opCode := a.opCode + 1 }) (fun _ => .none) :=
  ⟨fun w _ => ⟨w, rfl⟩, fun w _ => ⟨w + 1, 0, .nop, rfl⟩⟩
example : traverse adding 20 0 (prog [instr 1, instr 2]) =
    .ok (3, { ast := { prog [instr 2, instr 3] with opCode := 101 }, pcIncr := 0, op := .nop, thrown := none, err := none }) := rfl

end Takenoco
