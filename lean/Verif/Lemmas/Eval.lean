import Verif.Spec.Peg
/-
Reading facts about a concrete run off its computed result.
-/
namespace Takenoco
open Spec

/-- Some value computed from the context returned by a match. -/
def matchedWith {α : Type} (f : Ctx → α) (r : Out PRes) : Option α :=
  match Outcome.of r with
  | .matched c => some (f c)
  | _ => none

theorem matchedWith_some {α : Type} {f : Ctx → α} {r : Out PRes} {a : α} (h : matchedWith f r = some a) :
    ∃ o, Outcome.of r = .matched o ∧ f o = a := by
  unfold matchedWith at h
  split at h
  · rename_i c hc; exact ⟨c, hc, Option.some.inj h⟩
  · cases h

end Takenoco
