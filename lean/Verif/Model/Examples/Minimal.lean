import Verif.Model.Examples.Formula
/-
Layer A model of the minimal parser in /repo/_docs/introduction.md (lines 31-111).
-/
namespace Takenoco.Minimal
open Gram

/-- `program`: introduction.md:66-79. -/
def program : Gram := .flatGroup [.prim startP, .trans (plus [.prim alpha]) [.fn concat], .prim endS]

/-- The part of `Parse` after `rootParser` has returned: introduction.md:90-110. -/
def finish (s : Bytes) (r : PRes) : Out (Formula.ParseRes Bytes) := do
  match r with
  | (out, some e) => return .failed (some e) (← getLineAndCol s out.pos 4)
  | (out, none) =>
    if out.status = .matched then return .value (← asStr (← goGet out.stack 0).val)
    else return .failed none (← getLineAndCol s out.pos 4)

/-- `Parse`: introduction.md:88-111. -/
def parse (fuel : Nat) (s : Bytes) : Out (Formula.ParseRes Bytes) := do
  finish s (← run noEnv fuel program (newStrCtx s))

end Takenoco.Minimal
