import Verif.Lemmas.Footprint
import Verif.Props.Heap
/-
C83: where a parser writes.
-/
namespace Takenoco
open Spec

/-- **C83.** Whatever the grammar, also with `Match` and any callbacks: a parser writes to no array that existed before, except to the
one of the stack of the context it is called with; and the stack of its result is in this array or in a new one. -/
theorem C83_writes (w : World) (env : Env) (n : Nat) (g : Gram) (m m' : Mem) (c : HCtx) (r : HRes) (h : Heap.run w env n g c m = .ok (r, m')) :
    (∀ a i, a < m.next → a ≠ c.stack.arr → m'.cell a i = m.cell a i) ∧ (r.1.stack.arr = c.stack.arr ∨ m.next ≤ r.1.stack.arr) := by
  obtain ⟨h1, h2⟩ := (Heap.run_tidy w env n).1 g c.stack.arr m c (.inl rfl) m ⟨Nat.le_refl _, fun _ _ _ _ => rfl⟩ r m' h
  exact ⟨h1.2, h2⟩

/-- A parse of a text with a new context. -/
def parseText (w : World) (env : Env) (n : Nat) (g : Gram) (s : Bytes) : HM HRes := Heap.newStrCtx s >>= fun c => Heap.run w env n g c

/-- **C83.** A parse with a new context changes nothing that was in memory before. -/
theorem C83_parse (w : World) (env : Env) (n : Nat) (g : Gram) (s : Bytes) (m m' : Mem) (r : HRes) (h : parseText w env n g s m = .ok (r, m')) :
    m.next ≤ m'.next ∧ (∀ a i, a < m.next → m'.cell a i = m.cell a i) ∧ m.next ≤ r.1.stack.arr := by
  obtain ⟨t, m1, h1, h2, h3, h4, h5, h6, h7⟩ := Heap.make_spec [] 1024 m (by simp)
  have h8 : Heap.newStrCtx s m = .ok ({ str := s, slice := none, pos := 0, len := 0, qty := 0, stack := t, status := .matched, cls := "", tag := .nil }, m1) := by
    unfold Heap.newStrCtx; rw [Heap.bind_ok_run h1]; rfl
  rw [parseText, Heap.bind_ok_run h8] at h
  obtain ⟨g1, g2⟩ := (Heap.run_tidy w env n).1 g t.arr m1 _ (.inl rfl) m1 ⟨Nat.le_refl _, fun _ _ _ _ => rfl⟩ r m' h
  refine ⟨Nat.le_trans h3.1 g1.1, fun a i ha => ?_, ?_⟩
  · rw [g1.2 a i (Nat.lt_of_lt_of_le ha h3.1) (by omega), h3.2 a i ha]
  · rcases g2 with g2 | g2
    · rw [g2]; exact h4
    · exact Nat.le_trans h3.1 g2

/-- One parse after the other; the results are in memory at the end. -/
def parseTexts (w : World) (env : Env) (n : Nat) : List (Gram × Bytes) → HM (List HRes)
  | [] => pure []
  | (g, s) :: ps => do
    let r ← parseText w env n g s
    let rs ← parseTexts w env n ps
    return r :: rs

/-- **C83.** The result of a parse is not changed by later parses with contexts of their own: any context that refers to existing arrays
is afterwards what it was. -/
theorem C83_results (w : World) (env : Env) (n : Nat) (ps : List (Gram × Bytes)) : ∀ (m m' : Mem) (rs : List HRes), parseTexts w env n ps m = .ok (rs, m') →
    ∀ d : HCtx, d.stack.arr < m.next → (∀ t, d.slice = some (.asts t) → t.arr < m.next) → d.view m' = d.view m := by
  have hread : ∀ (m m' : Mem), (∀ a i, a < m.next → m'.cell a i = m.cell a i) → ∀ s : Slice, s.arr < m.next → m'.read s = m.read s := by
    intro m m' h s hs
    simp only [Mem.read, h _ _ hs]
  induction ps with
  | nil =>
    intro m m' rs h d _ _
    injection h with h
    injection h with h1 h2
    rw [h2]
  | cons p ps ih =>
    obtain ⟨g, s⟩ := p
    intro m m' rs h d h1 h2
    unfold parseTexts at h
    cases hp : parseText w env n g s m with
    | panic x => rw [Heap.bind_panic_run hp] at h; cases h
    | timeout => rw [Heap.bind_timeout_run hp] at h; cases h
    | ok rm =>
      obtain ⟨r, m1⟩ := rm
      rw [Heap.bind_ok_run hp] at h
      obtain ⟨g1, g2, -⟩ := C83_parse w env n g s m m1 r hp
      cases hq : parseTexts w env n ps m1 with
      | panic x => rw [Heap.bind_panic_run hq] at h; cases h
      | timeout => rw [Heap.bind_timeout_run hq] at h; cases h
      | ok rm =>
        obtain ⟨rs', m2⟩ := rm
        rw [Heap.bind_ok_run hq] at h
        injection h with h
        injection h with h3 h4
        subst h4
        rw [ih m1 m2 rs' hq d (Nat.lt_of_lt_of_le h1 g1) fun t ht => Nat.lt_of_lt_of_le (h2 t ht) g1]
        simp only [HCtx.view]
        rw [hread m m1 g2 _ h1]
        congr 1
        cases hs : d.slice with
        | none => rfl
        | some t =>
          cases t with
          | other t => rfl
          | asts t => simp only [Option.map_some, Mem.src, hread m m1 g2 _ (h2 t hs)]

/-- The positions of the ASTs on the stacks of two contexts. -/
def seenPositions : Out ((HCtx × HCtx) × Mem) → Option (List Nat × List Nat)
  | .ok ((r, s), m) => some ((r.view m).stack.map (·.pos), (s.view m).stack.map (·.pos))
  | _ => none

/-- Two parses with the same context: `p(ctx)` for "ab", and the same parser from the second character. -/
def sameContext : HM (HCtx × HCtx) := do
  let c ← Heap.newStrCtx (b! "ab")
  let (r, _) ← Heap.run plainWorld noEnv 9 (.prim anyS) c
  let (s, _) ← Heap.run plainWorld noEnv 9 (.prim anyS) { c with pos := 1 }
  return (r, s)

/-- This does not hold for parses with the same context: the stacks of the results are in the same array, and after the second parse
the first result holds the AST of the second. -/
theorem C83_same_context_false : seenPositions (sameContext noMem) = some ([1], [1]) ∧
    (match run noEnv 9 (.prim anyS) (newStrCtx (b! "ab")) with | .ok (o, _) => o.stack.map (·.pos) | _ => []) = [0] :=
  ⟨by cbv, by cbv⟩

/-! ### Examples -/

/-- Two parses, one with a grammar in which `Match` overwrites the stack: both results are there at the end. -/
example : (match parseTexts plainWorld noEnv 9 [(.prim anyS, b! "x"), (matchInFirst, b! "a")] noMem with
    | .ok (rs, m) => rs.map fun r => (r.1.view m).stack.map (·.ty)
    | _ => []) = [[.string], [.int]] := by cbv

#print axioms C83_writes
#print axioms C83_parse
#print axioms C83_results
#print axioms C83_same_context_false

end Takenoco
