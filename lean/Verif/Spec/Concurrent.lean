import Verif.Model.Concurrent
import Verif.Spec.Heap
/-
What is seen of goroutines that parse at the same time.
-/
namespace Takenoco.Spec

/-- What a goroutine has returned, as it is seen with this memory; nothing if it still runs. -/
def outcomeOf (m : Mem) : Prog HRes → Option (Out PRes)
  | .ret (o, e) => some (.ok (o.view m, e))
  | .panic p => some (.panic p)
  | .timeout => some .timeout
  | _ => none

/-- What one goroutine parses: a text with a new context, with a grammar of its own or one that others use, too. -/
structure Job where
  choice : Leeway
  env : Env
  fuel : Nat
  gram : Gram
  text : Bytes

/-- The program of the goroutine. -/
def Job.prog (j : Job) : Prog HRes := Conc.newStrCtx j.text >>= fun c => Conc.run j.choice j.env j.fuel j.gram c

/-- The machine when the goroutines start, with anything in memory. -/
def start (m : Mem) (jobs : Nat → Job) : Machine := { mem := m, threads := fun t => (jobs t).prog }

/-- The first `k` choices of an infinite schedule. -/
def firstSteps (sched : Nat → Nat) (k : Nat) : List Nat := (List.range k).map sched

/-- The scheduler never forgets the goroutine `t`. -/
def Fair (sched : Nat → Nat) (t : Nat) : Prop := ∀ n, ∃ k, n ≤ k ∧ sched k = t

end Takenoco.Spec
