import Verif.Model.SliceLike
/-
What the methods of `SliceLike` are expected to do (the comments at types.go:4-19, and what the Go language says about slices).
-/
namespace Takenoco
namespace Spec

/-- The index `i` of the slice `s` and the index `j` of the slice `t` are the same variable. -/
def SameVar (s : Slice) (i : Nat) (t : Slice) (j : Nat) : Prop := s.arr = t.arr ∧ s.off + i = t.off + j

/-- A slice that a program holds: its array has been allocated. -/
def Known (m : Mem) (s : Slice) : Prop := s.arr < m.next ∧ s.len ≤ s.cap

/-- One call of a method that can write to memory, on a slice of the program. -/
inductive SCall where
  | get (s : Slice) (i : Int)
  | set (s : Slice) (i : Int) (v : Value)
  | reslice (s : Slice) (start stop : Int)
  | copy (s : Slice) (start stop : Int)
  | make (s : Slice) (len cap : Int)

/-- The slice whose method is called. -/
def SCall.slice : SCall → Slice
  | .get s _ => s
  | .set s _ _ => s
  | .reslice s _ _ => s
  | .copy s _ _ => s
  | .make s _ _ => s

/-- What the calls do to the memory, if none panics. -/
def SCall.run (w : World) : SCall → Mem → Option Mem
  | .get s i, m => match Heap.sliceGet s i m with | .ok (_, m') => some m' | _ => none
  | .set s i v, m => match Heap.sliceSet s i v m with | .ok (_, m') => some m' | _ => none
  | .reslice s a b, m => match Heap.sliceReslice s a b m with | .ok (_, m') => some m' | _ => none
  | .copy s a b, m => match Heap.sliceCopy w s a b m with | .ok (_, m') => some m' | _ => none
  | .make s l c, m => match Heap.sliceMake s l c m with | .ok (_, m') => some m' | _ => none

/-- A list of calls, one after the other. -/
def runCalls (w : World) : List SCall → Mem → Option Mem
  | [], m => some m
  | c :: cs, m => (c.run w m).bind (runCalls w cs)

/-- At every call the program holds the slice. -/
def Held (w : World) : List SCall → Mem → Prop
  | [], _ => True
  | c :: cs, m => Known m c.slice ∧ ∀ m', c.run w m = some m' → Held w cs m'

/-- The call writes to the index `j` of the slice `t`. -/
def SCall.writes (t : Slice) (j : Nat) : SCall → Prop
  | .set s i _ => SameVar s i.toNat t j
  | _ => False

end Spec
end Takenoco
