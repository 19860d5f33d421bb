import Verif.Lemmas.Goroutines
import Verif.Props.Footprint
/-
C107: goroutines that parse at the same time.
-/
namespace Takenoco
open Spec

/-- What the goroutine would give if it ran alone, with nothing else in memory. -/
def byItself (j : Job) : Out PRes := observe (parseText j.choice.world j.env j.fuel j.gram j.text noMem)

theorem start_apart (m : Mem) (jobs : Nat → Job) :
    Conc.Apart (fun t => parseText (jobs t).choice.world (jobs t).env (jobs t).fuel (jobs t).gram (jobs t).text noMem) (start m jobs) := by
  refine ⟨fun _ _ => none, fun _ => noMem, fun t => ⟨?_, nofun, nofun, nofun, fun _ _ _ => rfl⟩, nofun⟩
  exact ((Conc.newStrCtx_fol (jobs t).text _).bind fun ρ' _ c c' hc => (Conc.run_fol (jobs t).choice (jobs t).env (jobs t).fuel).1 (jobs t).gram ρ' c c' hc) noMem

/-- **C107.** Any number of goroutines parse at the same time, each with a new context, with any grammars (also the same one, also with `Match` and
any callbacks), and their memory accesses are interleaved in any order: whenever one of them has returned, what is seen of its result, then and
at any later time, is what it would have given alone. -/
theorem C107_undisturbed (m : Mem) (jobs : Nat → Job) (order : List Nat) (t : Nat) (o : Out PRes)
    (h : outcomeOf ((start m jobs).steps order).mem (((start m jobs).steps order).threads t) = some o) : o = byItself (jobs t) := by
  obtain ⟨ρ, ms, h1, -⟩ := Conc.apart_steps (start_apart m jobs) order
  exact Conc.fits_outcome (h1 t) h

/-- **C107.** A goroutine that the scheduler does not forget gets to an end, whatever the others do, and its result stays as it is. -/
theorem C107_ends (m : Mem) (jobs : Nat → Job) (sched : Nat → Nat) (t : Nat) (h : Fair sched t) : ∃ k, ∀ later,
    outcomeOf ((start m jobs).steps (firstSteps sched k ++ later)).mem (((start m jobs).steps (firstSteps sched k ++ later)).threads t) = some (byItself (jobs t)) := by
  obtain ⟨k, hk⟩ := Conc.ends _ sched (start m jobs) rfl h
  refine ⟨k, fun later => ?_⟩
  have h1 : ∀ x, (outcomeOf x (((start m jobs).steps (firstSteps sched k ++ later)).threads t)).isSome := fun x => by
    rw [Conc.steps_append, Conc.done_steps later hk]
    exact hk x
  obtain ⟨o, ho⟩ := Option.isSome_iff_exists.1 (h1 ((start m jobs).steps (firstSteps sched k ++ later)).mem)
  rw [ho, C107_undisturbed m jobs _ t o ho]

/-- **C107.** Without `Match`, this is what the parser gives for the text. -/
theorem C107_text (m : Mem) (jobs : Nat → Job) (order : List Nat) (t : Nat) (o : Out PRes) (he : ∀ x, MatchFree ((jobs t).env x)) (hg : MatchFree (jobs t).gram)
    (h : outcomeOf ((start m jobs).steps order).mem (((start m jobs).steps order).threads t) = some o) :
    o = run (jobs t).env (jobs t).fuel (jobs t).gram (newStrCtx (jobs t).text) := by
  rw [C107_undisturbed m jobs order t o h, byItself, parseText, C45_text _ he hg]

/-- **C107.** The CSV parser may be used by any number of goroutines. -/
theorem C107_csv (m : Mem) (w : Leeway) (n : Nat) (texts : Nat → Bytes) (order : List Nat) (t : Nat) (o : Out PRes)
    (h : outcomeOf ((start m fun t => ⟨w, noEnv, n, Csv.document, texts t⟩).steps order).mem
      (((start m fun t => ⟨w, noEnv, n, Csv.document, texts t⟩).steps order).threads t) = some o) :
    o = run noEnv n Csv.document (newStrCtx (texts t)) := by
  rw [C107_undisturbed m _ order t o h, byItself, parseText, C45_csv]

/-- **C107.** The formula parser, with its production rules, may be used by any number of goroutines. -/
theorem C107_formula (m : Mem) (w : Leeway) (n : Nat) (texts : Nat → Bytes) (order : List Nat) (t : Nat) (o : Out PRes)
    (h : outcomeOf ((start m fun t => ⟨w, Formula.env, n, Formula.program, texts t⟩).steps order).mem
      (((start m fun t => ⟨w, Formula.env, n, Formula.program, texts t⟩).steps order).threads t) = some o) :
    o = run Formula.env n Formula.program (newStrCtx (texts t)) := by
  rw [C107_undisturbed m _ order t o h, byItself, parseText, C45_formula]

/-- As `plainWorld`. -/
def plainLeeway : Leeway := { spare := fun _ _ _ => 0, part := fun _ _ => none, part_spec := nofun }

/-- A context of the text "ab", with the stack in the array 0, as `NewStringParserContext` makes it. -/
def sharedCtx : HCtx := { str := b! "ab", slice := none, pos := 0, len := 0, qty := 0, stack := ⟨0, 0, 0, 1024⟩, status := .matched, cls := "", tag := .nil }

/-- Two goroutines with the same context: `Any()` for the first character, and `Any()` for the second. -/
def sharing : Machine :=
  { mem := { noMem with next := 1 }
    threads := fun t => if t = 0 then Conc.run plainLeeway noEnv 9 (.prim anyS) sharedCtx else Conc.run plainLeeway noEnv 9 (.prim anyS) { sharedCtx with pos := 1 } }

/-- The positions of the ASTs that a goroutine has returned. -/
def returned (M : Machine) (t : Nat) : Option (List Nat) :=
  match outcomeOf M.mem (M.threads t) with
  | some (.ok (o, _)) => some (o.stack.map (·.pos))
  | _ => none

/-- Not for goroutines that share a context: the first one has returned the AST of the first character, and then finds that of the second
in its result. -/
theorem C107_shared_context_false : returned (sharing.steps [0]) 0 = some [0] ∧ returned (sharing.steps [0, 1]) 0 = some [1] := ⟨by cbv, by cbv⟩

/-! ### Examples -/

/-- Goroutine 0 parses "x" with `Any()`, all others parse "a" with a grammar in which `Match` overwrites the stack. -/
def twoJobs : Nat → Job := fun t => if t = 0 then ⟨plainLeeway, noEnv, 9, .prim anyS, b! "x"⟩ else ⟨plainLeeway, noEnv, 9, matchInFirst, b! "a"⟩

/-- One step each in turn: both return, each its own result. -/
example : (match outcomeOf ((start noMem twoJobs).steps (firstSteps (fun n => n % 2) 60)).mem (((start noMem twoJobs).steps (firstSteps (fun n => n % 2) 60)).threads 0) with
    | some r => stackTypes r | none => []) = [.string] ∧
  (match outcomeOf ((start noMem twoJobs).steps (firstSteps (fun n => n % 2) 60)).mem (((start noMem twoJobs).steps (firstSteps (fun n => n % 2) 60)).threads 1) with
    | some r => stackTypes r | none => []) = [.int] := ⟨by cbv, by cbv⟩

/-- Both are in the middle of their work at the same time. -/
example : (outcomeOf noMem (((start noMem twoJobs).steps [0, 1]).threads 0)).isNone ∧ (outcomeOf noMem (((start noMem twoJobs).steps [0, 1]).threads 1)).isNone := ⟨by cbv, by cbv⟩

/-- Taking turns is fair. -/
example : Fair (fun n => n % 2) 1 := fun n => ⟨2 * n + 1, by omega, by show (2 * n + 1) % 2 = 1; omega⟩

#print axioms C107_undisturbed
#print axioms C107_ends
#print axioms C107_text
#print axioms C107_csv
#print axioms C107_formula
#print axioms C107_shared_context_false

end Takenoco
