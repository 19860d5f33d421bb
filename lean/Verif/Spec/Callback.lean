import Verif.Spec.Peg
/-
The rounds of `BaseParser` with an implementation callback.
-/
namespace Takenoco.Spec

/-- The bounds in a property. -/
def timesItem : PropItem → Option Times
  | .times t => some t
  | _ => none

/-- The bounds of the repetition: the last ones given, or exactly one. -/
def timesOf (props : List PropItem) : Times :=
  ((props.filterMap timesItem).getLast?).getD ⟨1, 1⟩

/-- The children match from `c`, in sequence, or one of them (`any`); `k` is the number of those that matched. -/
inductive Children (any : Bool) (ps : List Sem) (c : Ctx) : Nat → Ctx → Prop where
  | all {c' : Ctx} : any = false → Seq ps c (.matched c') → Children any ps c ps.length c'
  | one {c' : Ctx} : any = true → Choice ps c (.matched c') → Children any ps c 1 c'
  | none : any = true → ps = [] → Children any ps c 0 c

/-- `Rounds f b any ps n c d`: `n` rounds lead from `c` to `d`. In each one the children match, and then the callback does; it is
called with the number of children that matched, the height `b` of the stack, and the context, which has the number of the round. -/
inductive Rounds (f : ImplFn) (b : Nat) (any : Bool) (ps : List Sem) : Nat → Ctx → Ctx → Prop where
  | zero {c : Ctx} : Rounds f b any ps 0 c c
  | succ {n k : Nat} {c d d' o : Ctx} : Rounds f b any ps n c d → Children any ps d k d' →
      f k b { d' with qty := n } = .ok (o, none) → o.status = .matched → Rounds f b any ps (n + 1) c o

/-- There are no more rounds after the `n`-th one, which ended in `d`: it was the last, or the children do not match,
or the callback does not. -/
inductive NoMore (f : ImplFn) (b : Nat) (any : Bool) (ps : List Sem) (t : Times) (n : Nat) (d : Ctx) : Prop where
  | last : (n : Int) = t.max → NoMore f b any ps t n d
  | all : any = false → Seq ps d .unmatched → NoMore f b any ps t n d
  | any : any = true → ps ≠ [] → Choice ps d .unmatched → NoMore f b any ps t n d
  | callback {k : Nat} {d' o : Ctx} : Children any ps d k d' → f k b { d' with qty := n } = .ok (o, none) → o.status = .unmatched →
      NoMore f b any ps t n d

end Takenoco.Spec
