import Verif.Lemmas.Pipeline
import Verif.Lemmas.TrimOrder
import Verif.Spec.Algebra
/-
C112: pipelines of transformers that can be shortened.
-/
namespace Takenoco
open Spec
variable {env : Env} (g : Gram) (ts us : List Tr)

/-- **C112.** `Concat` before a transformer that reads a text can be left out: these concatenate by themselves, with the same errors and panics. -/
theorem C112_concat {T : TSem} (hT : T = concat ∨ T = trim ∨ T = trimStart ∨ T = trimEnd ∨ (∃ b, T = parseIntRadix b) ∨ (∃ b, T = parseUintRadix b) ∨
    ∃ pf, T = parseFloatT pf) : den env (.trans g (ts ++ [.fn concat, .fn T] ++ us)) = den env (.trans g (ts ++ [.fn T] ++ us)) := by
  refine den_trans_congr (mid := [concat, T]) (mid' := [T]) (by simp) (by simp) ?_ g ts us
  rcases hT with rfl | rfl | rfl | rfl | ⟨b, rfl⟩ | ⟨b, rfl⟩ | ⟨pf, rfl⟩
  · exact concat_twice
  all_goals exact afterConcat_concat _

/-- **C112.** `TrimStart` and `TrimEnd`, in either order, are `Trim`. -/
theorem C112_trim :
    den env (.trans g (ts ++ [.fn trimEnd, .fn trimStart] ++ us)) = den env (.trans g (ts ++ [.fn trim] ++ us)) ∧
    den env (.trans g (ts ++ [.fn trimStart, .fn trimEnd] ++ us)) = den env (.trans g (ts ++ [.fn trim] ++ us)) := by
  refine ⟨den_trans_congr (mid := [trimEnd, trimStart]) (mid' := [trim]) (by simp) (by simp) (afterConcat_twice trimRight trimLeft) g ts us,
    den_trans_congr (mid := [trimStart, trimEnd]) (mid' := [trim]) (by simp) (by simp) (fun c asts => ?_) g ts us⟩
  refine (afterConcat_twice trimLeft trimRight c asts).trans ?_
  simp only [trimRight_trimLeft]
  rfl

/-- **C112.** `Trim` before or after any of the three trimming transformers leaves only `Trim`. -/
theorem C112_trimmed {T : TSem} (hT : T = trim ∨ T = trimStart ∨ T = trimEnd) :
    den env (.trans g (ts ++ [.fn trim, .fn T] ++ us)) = den env (.trans g (ts ++ [.fn trim] ++ us)) ∧
    den env (.trans g (ts ++ [.fn T, .fn trim] ++ us)) = den env (.trans g (ts ++ [.fn trim] ++ us)) := by
  have hR : ∀ s, trimRight (trimBoth s) = trimBoth s := fun s => by rw [← trimRight_trimLeft, trimRight_idem]
  have hL : ∀ s, trimLeft (trimBoth s) = trimBoth s := fun s => trimLeft_idem (trimRight s)
  have hR' : ∀ s, trimBoth (trimRight s) = trimBoth s := fun s => by unfold trimBoth; rw [trimRight_idem]
  have hL' : ∀ s, trimBoth (trimLeft s) = trimBoth s := fun s => by rw [← trimRight_trimLeft, trimLeft_idem, trimRight_trimLeft]
  refine ⟨den_trans_congr (mid := [trim, T]) (mid' := [trim]) (by simp) (by simp) (fun c asts => ?_) g ts us,
    den_trans_congr (mid := [T, trim]) (mid' := [trim]) (by simp) (by simp) (fun c asts => ?_) g ts us⟩
  · rcases hT with rfl | rfl | rfl
    · exact (afterConcat_twice trimBoth trimBoth c asts).trans (by simp only [trimBoth_idem]; rfl)
    · exact (afterConcat_twice trimBoth trimLeft c asts).trans (by simp only [hL]; rfl)
    · exact (afterConcat_twice trimBoth trimRight c asts).trans (by simp only [hR]; rfl)
  · rcases hT with rfl | rfl | rfl
    · exact (afterConcat_twice trimBoth trimBoth c asts).trans (by simp only [trimBoth_idem]; rfl)
    · exact (afterConcat_twice trimLeft trimBoth c asts).trans (by simp only [hL']; rfl)
    · exact (afterConcat_twice trimRight trimBoth c asts).trans (by simp only [hR']; rfl)

/-- **C112.** Opcode and class name set one after the other, in either order, are set as by `SetOpCodeAndClassName`. -/
theorem C112_both (op : UInt64) (name : String) :
    den env (.trans g (ts ++ [.fn (setOpCode op), .fn (changeClassName name)] ++ us)) = den env (.trans g (ts ++ [.fn (setOpCodeAndClassName op name)] ++ us)) ∧
    den env (.trans g (ts ++ [.fn (changeClassName name), .fn (setOpCode op)] ++ us)) = den env (.trans g (ts ++ [.fn (setOpCodeAndClassName op name)] ++ us)) :=
  ⟨den_trans_congr (mid := [setOpCode op, changeClassName name]) (mid' := [setOpCodeAndClassName op name]) (by simp) (by simp) (rewriteHead_twice _ _) g ts us,
   den_trans_congr (mid := [changeClassName name, setOpCode op]) (mid' := [setOpCodeAndClassName op name]) (by simp) (by simp) (rewriteHead_twice _ _) g ts us⟩

/-- **C112.** Of two class names, opcodes or values set in a row only the last counts. -/
theorem C112_last (op op' : UInt64) (name name' : String) (ty ty' : AstType) (v v' : Value) :
    den env (.trans g (ts ++ [.fn (setOpCode op), .fn (setOpCode op')] ++ us)) = den env (.trans g (ts ++ [.fn (setOpCode op')] ++ us)) ∧
    den env (.trans g (ts ++ [.fn (changeClassName name), .fn (changeClassName name')] ++ us)) = den env (.trans g (ts ++ [.fn (changeClassName name')] ++ us)) ∧
    den env (.trans g (ts ++ [.fn (setValue ty v), .fn (setValue ty' v')] ++ us)) = den env (.trans g (ts ++ [.fn (setValue ty' v')] ++ us)) :=
  ⟨den_trans_congr (mid := [setOpCode op, setOpCode op']) (mid' := [setOpCode op']) (by simp) (by simp) (rewriteHead_twice _ _) g ts us,
   den_trans_congr (mid := [changeClassName name, changeClassName name']) (mid' := [changeClassName name']) (by simp) (by simp) (rewriteHead_twice _ _) g ts us,
   den_trans_congr (mid := [setValue ty v, setValue ty' v']) (mid' := [setValue ty' v']) (by simp) (by simp) (rewriteHead_twice _ _) g ts us⟩

/-- **C112.** `Roll` beside another transformer can be left out: it does nothing, whatever its argument. -/
theorem C112_roll (n : Int) (t : TSem) :
    den env (.trans g (ts ++ [.fn (roll n), .fn t] ++ us)) = den env (.trans g (ts ++ [.fn t] ++ us)) ∧
    den env (.trans g (ts ++ [.fn t, .fn (roll n)] ++ us)) = den env (.trans g (ts ++ [.fn t] ++ us)) := by
  have hr : ∀ c asts, roll n c asts = .ok (asts, none) := fun c asts => by unfold roll; split <;> split <;> rfl
  refine ⟨den_trans_congr (mid := [roll n, t]) (mid' := [t]) (by simp) (by simp) (fun c asts => ?_) g ts us,
    den_trans_congr (mid := [t, roll n]) (mid' := [t]) (by simp) (by simp) (fun c asts => ?_) g ts us⟩
  · simp only [applyTrs, hr]
  · simp only [applyTrs, hr]

/-- **C112.** What cannot fail has no effect before `Erase`. -/
theorem C112_erase {T : TSem} (hT : (∃ op, T = setOpCode op) ∨ (∃ name, T = changeClassName name) ∨ (∃ op name, T = setOpCodeAndClassName op name) ∨
    (∃ ty v, T = setValue ty v) ∨ T = pop ∨ T = erase) : den env (.trans g (ts ++ [.fn T, .fn erase] ++ us)) = den env (.trans g (ts ++ [.fn erase] ++ us)) := by
  refine den_trans_congr (mid := [T, erase]) (mid' := [erase]) (by simp) (by simp) (fun c asts => ?_) g ts us
  rcases hT with ⟨_, rfl⟩ | ⟨_, rfl⟩ | ⟨_, _, rfl⟩ | ⟨_, _, rfl⟩ | rfl | rfl <;> cases asts <;> rfl

/-! ### Examples -/

/-- A value that is set and then erased. -/
example : den noEnv (.trans (.prim number) [.fn (setValue .int (.int 7)), .fn erase]) = den noEnv (.trans (.prim number) [.fn erase]) :=
  C112_erase (.prim number) [] [] (.inr (.inr (.inr (.inl ⟨_, _, rfl⟩))))
/-- `ParseInt` before `Erase` cannot be left out: it may fail. -/
example : (∃ o e, Outcome.of (run noEnv 9 (.trans (.prim anyS) [.fn parseIntT, .fn erase]) (newStrCtx (b! "x"))) = .failed o (some e)) ∧
    ∃ o, Outcome.of (run noEnv 9 (.trans (.prim anyS) [.fn erase]) (newStrCtx (b! "x"))) = .matched o := ⟨⟨_, _, by cbv⟩, _, by cbv⟩

/-- `Roll` does not exchange the letters. -/
example : ∃ o, Outcome.of (run noEnv 9 (.trans (.plus [.prim anyS]) [.fn (roll 1), .fn concat]) (newStrCtx (b! "ab"))) = .matched o ∧
    o.stack.map (·.val) = [.str (b! "ab")] := ⟨_, by cbv, by cbv⟩

/-- Digits read as a number, with and without `Concat`. -/
example : den noEnv (.trans (.plus [.prim number]) [.fn concat, .fn parseIntT]) = den noEnv (.trans (.plus [.prim number]) [.fn parseIntT]) :=
  C112_concat (.plus [.prim number]) [] [] (.inr (.inr (.inr (.inr (.inl ⟨10, rfl⟩)))))

/-- Both read `42` from `42x`. -/
example : ∃ o, Outcome.of (run noEnv 9 (.trans (.plus [.prim number]) [.fn concat, .fn parseIntT]) (newStrCtx (b! "42x"))) = .matched o ∧ o.stack.map (·.val) = [.int 42] ∧
    o.pos = 2 := ⟨_, by cbv, by cbv, by cbv⟩

/-- After a transformer that reads a text, `Concat` cannot be added: it refuses the number. -/
example : ∃ o e, Outcome.of (run noEnv 9 (.trans (.plus [.prim number]) [.fn parseIntT, .fn concat]) (newStrCtx (b! "42x"))) = .failed o (some e) := ⟨_, _, by cbv⟩

/-- White space around a word. -/
example : den noEnv (.trans (.plus [.prim anyS]) [.fn trimEnd, .fn trimStart, .fn (changeClassName "word")]) =
    den noEnv (.trans (.plus [.prim anyS]) [.fn trim, .fn (changeClassName "word")]) := (C112_trim (.plus [.prim anyS]) [] [.fn (changeClassName "word")]).1
example : den noEnv (.trans (.plus [.prim anyS]) [.fn trimStart, .fn trim]) = den noEnv (.trans (.plus [.prim anyS]) [.fn trim]) :=
  (C112_trimmed (.plus [.prim anyS]) [] [] (.inr (.inl rfl))).2
example : ∃ o, Outcome.of (run noEnv 9 (.trans (.plus [.prim anyS]) [.fn trimEnd, .fn trimStart]) (newStrCtx (b! " ab "))) = .matched o ∧
    o.stack.map (·.val) = [.str (b! "ab")] := ⟨_, by cbv, by cbv⟩

example : den noEnv (.trans (.prim number) [.fn (changeClassName "digit"), .fn (setOpCode 3)]) = den noEnv (.trans (.prim number) [.fn (setOpCodeAndClassName 3 "digit")]) :=
  (C112_both (.prim number) [] [] 3 "digit").2
example : den noEnv (.trans (.prim number) [.fn (changeClassName "digit"), .fn (changeClassName "figure")]) = den noEnv (.trans (.prim number) [.fn (changeClassName "figure")]) :=
  (C112_last (.prim number) [] [] 0 0 "digit" "figure" .any .any .nil .nil).2.1

#print axioms C112_concat
#print axioms C112_trim
#print axioms C112_trimmed
#print axioms C112_both
#print axioms C112_last
#print axioms C112_roll
#print axioms C112_erase

end Takenoco
