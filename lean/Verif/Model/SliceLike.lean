import Verif.Model.Heap
/-
`AstSlice` as a `SliceLike`: ast.go:253-286, on the memory of `Verif.Model.Heap`. Go's bounds checks are explicit: an index has to be
below the length, the bounds of a slice expression only below the capacity. `ItemEquals` is `astItemEquals` of
`Verif.Model.Transformers`.

Simplifications: the lengths that `make` refuses because they do not fit into memory are not modelled. The array of a slice that `Make`
or `Copy` returns is zeroed up to the capacity.
-/
namespace Takenoco
namespace Heap

/-- `AstSlice.Len`: ast.go:258-260. -/
def sliceLen (s : Slice) : HM Nat := fun m => .ok (s.len, m)

/-- `AstSlice.Get`: ast.go:263-265. -/
def sliceGet (s : Slice) (i : Int) : HM Value := fun m =>
  if 0 ≤ i ∧ i < s.len then .ok (.ast (m.cell s.arr (s.off + i.toNat)), m) else .panic .index

/-- `AstSlice.Set`: ast.go:268-270. -/
def sliceSet (s : Slice) (i : Int) (v : Value) : HM Unit := fun m =>
  match v with
  | .ast a => if 0 ≤ i ∧ i < s.len then .ok ((), m.write s.arr (s.off + i.toNat) [a]) else .panic .index
  | _ => .panic .typeAssert

/-- The slice expression `s[start:end]` of the Go language: the end is limited by the capacity, not by the length. -/
def sliceExpr (s : Slice) (start stop : Int) : HM Slice := fun m =>
  if 0 ≤ start ∧ start ≤ stop ∧ stop ≤ s.cap then
    .ok ({ s with off := s.off + start.toNat, len := (stop - start).toNat, cap := s.cap - start.toNat }, m)
  else .panic .index

/-- `AstSlice.Reslice`: ast.go:273-275. -/
def sliceReslice (s : Slice) (start stop : Int) : HM Slice := sliceExpr s start stop

/-- `make(AstSlice, len, cap)` of the Go language. -/
def sliceNew (len cap : Int) : HM Slice := fun m =>
  if 0 ≤ len ∧ len ≤ cap then
    .ok ({ arr := m.next, off := 0, len := len.toNat, cap := cap.toNat },
      { next := m.next + 1, cell := (m.write m.next 0 (List.replicate cap.toNat Ast.zero)).cell })
  else .panic .index

/-- `AstSlice.Copy`: ast.go:278-281. -/
def sliceCopy (w : World) (s : Slice) (start stop : Int) : HM Slice := do
  let d ← sliceNew 0 (stop - start)
  let p ← sliceExpr s start stop
  let l ← load p
  append w d l

/-- `AstSlice.Make`: ast.go:284-286. -/
def sliceMake (_ : Slice) (len cap : Int) : HM Slice := sliceNew len cap

end Heap
end Takenoco
