import Verif.Model.Box
/-
Specification vocabulary for boxes over a map.
-/
namespace Takenoco
namespace Spec
open Boxes

/-- The value can be stored in the map under this key. -/
def Fits {K P : Type} (c : Container K P) (k : K) : Dyn P → Prop
  | .nil => c.keyOk k = true
  | .val ty _ => c.keyOk k = true ∧ c.isNil = false ∧ (c.elem = none ∨ c.elem = some ty)

/-- The call `o` is a write to the key `k` that goes through. -/
def WritesKey {K P B : Type} (boxes : B → BoxInfo K) (c : Container K P) (k : K) (o : Op K P B) : Prop :=
  ∃ b v, o = .set b v ∧ (boxes b).key = k ∧ Fits c k v

/-- The call `o` is a write through the box `b` that goes through. -/
def WritesBox {K P B : Type} (boxes : B → BoxInfo K) (c : Container K P) (b : B) (o : Op K P B) : Prop :=
  ∃ v, o = .set b v ∧ Fits c (boxes b).key v

/-- The last write to `k` in the history is through `b` and writes `v`. -/
def LastWrite {K P B : Type} (boxes : B → BoxInfo K) (c : Container K P) (os : List (Op K P B)) (k : K) (v : Dyn P) : Prop :=
  ∃ pre b post, os = pre ++ .set b v :: post ∧ (boxes b).key = k ∧ Fits c k v ∧ ∀ o ∈ post, ¬ WritesKey boxes c k o

end Spec

end Takenoco
