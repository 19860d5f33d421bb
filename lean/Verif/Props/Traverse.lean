import Verif.Lemmas.Traverse
/-
C41, C42: `Ast.Traverse`.
-/
namespace Takenoco
open Spec
variable {σ T E : Type}

/-- Recording the calls does not change the traversal. -/
theorem C41_recording (v : Visitor σ T E) (n : Nat) (w : σ) (l : List (Call T E)) (a : Ast) :
    traverse v n w a = (traverse (logged v) n (w, l) a).bind fun p => .ok (p.1.1, p.2) :=
  (forget_traverse v n (w, l) a).symm

/-- **C41.** With callbacks that return their argument, the traversal of `a` ends without a failure, makes the calls of the
depth-first walk, and returns the result of the walk. -/
theorem C41_traverse (v : Visitor σ T E) (mode : Ast → WayThereMode) (hv : IdleVisitor v mode) (a : Ast) (ht : Tagged a) :
    ∃ a' cs, Walk mode [a] [a'] cs ∧ ∃ N, ∀ n, N ≤ n → ∀ w l, ∃ w', traverse (logged v) n (w, l) a =
      .ok ((w', l ++ cs), { ast := a', pcIncr := 0, op := .nop, thrown := none, err := none }) := by
  obtain ⟨a', cs, h⟩ := walk_exists T E mode ht
  obtain ⟨N, h'⟩ := walk_visits hv h
  cases h' with
  | cons h1 h2 => cases h2; exact ⟨a', _, h, N, by simpa [Visits] using h1⟩

/-- Every walk is the one that the traversal takes. -/
theorem C41_walk (v : Visitor σ T E) (mode : Ast → WayThereMode) (hv : IdleVisitor v mode) (a a' : Ast) (cs : List (Call T E))
    (h : Walk mode [a] [a'] cs) : ∃ N, ∀ n, N ≤ n → ∀ w l, ∃ w', traverse (logged v) n (w, l) a =
      .ok ((w', l ++ cs), { ast := a', pcIncr := 0, op := .nop, thrown := none, err := none }) := by
  obtain ⟨N, h'⟩ := walk_visits hv h
  cases h' with
  | cons h1 h2 => cases h2; exact ⟨N, by simpa [Visits] using h1⟩

/-- Unless a node is visited in mode `Last`, the tree is returned unchanged. -/
theorem C41_same (v : Visitor σ T E) (mode : Ast → WayThereMode) (hv : IdleVisitor v mode) (hm : ∀ a, mode a ≠ .last) (a : Ast) (ht : Tagged a) :
    ∃ N, ∀ n, N ≤ n → ∀ w, ∃ w', traverse v n w a = .ok (w', { ast := a, pcIncr := 0, op := .nop, thrown := none, err := none }) := by
  obtain ⟨a', cs, h, N, h'⟩ := C41_traverse v mode hv a ht
  cases walk_same hm h
  refine ⟨N, fun n hn w => ?_⟩
  obtain ⟨w', h1⟩ := h' n hn w []
  exact ⟨w', by rw [C41_recording v n w [] a, h1]; rfl⟩

/-- In mode `Lazy` the children are not visited: two calls, whatever the tree. -/
theorem C41_lazy (v : Visitor σ T E) (mode : Ast → WayThereMode) (hv : IdleVisitor v mode) (a : Ast) (hm : mode a = .lazy) (n : Nat) (w : σ)
    (l : List (Call T E)) : ∃ w', traverse (logged v) (n + 1) (w, l) a =
      .ok ((w', l ++ [.there a a .lazy none, .back a a none none]), { ast := a, pcIncr := 0, op := .nop, thrown := none, err := none }) := by
  obtain ⟨w1, h1⟩ := logged_there hv w l a
  obtain ⟨w2, h2⟩ := logged_wayBack hv w1 (l ++ [.there a a (mode a) none]) a
  refine ⟨w2, ?_⟩
  rw [traverse, h1]
  simp only [Out.bind_ok, if_pos hm, h2]
  simp [hm]

/-- **C42.** However the callbacks behave: if the traversal returns without a failure, the calls were way-there and way-back
calls without failures, and each node that was entered was left, in the opposite order. If it returns with a failure, there
is a first failing call; after it `fnChildrenErr` was called once for each node that had been entered and not left, the
innermost first, with the thrown value and the error of the failing call; nothing else was called; and this thrown value
and this error are returned. -/
theorem C42_traverse (v : Visitor σ T E) (n : Nat) (w w' : σ) (a : Ast) (log : List (Call T E)) (r : Visited T E)
    (h : traverse (logged v) n (w, []) a = .ok ((w', log), r)) :
    (r.failed = false ∧ Trail log []) ∨
    (r.failed = true ∧ ∃ before call open_ left after, log = before ++ call :: after ∧ Trail before open_ ∧
      Failing r.thrown r.err call open_ left ∧ Unwound r.thrown r.err left after) := by
  have h1 := traverse_traced v n _ _ _ _ [] h .nil
  cases hf : r.failed with
  | false => exact .inl ⟨rfl, h1.1 hf⟩
  | true =>
    obtain ⟨l1, ev, cs, open_, left, e, h2, h3, h4⟩ := h1.2 hf
    exact .inr ⟨rfl, l1, ev, open_, left, cs, e, h2, by simpa using h3, h4⟩

/-! ### Non-vacuity -/

/-- A leaf with a number. -/
private def leafAst (i : Nat) : Ast := { opCode := i.toUInt64, cls := "", ty := .nil, val := .nil, pos := 0, len := 0 }
/-- A list of two leaves and a pair. -/
private def treeAst : Ast :=
  { opCode := 0, cls := "", ty := .listOfAst, pos := 0, len := 0,
    val := .list [leafAst 1, { opCode := 9, cls := "", ty := .astCons, pos := 0, len := 0, val := .cons (leafAst 2) (leafAst 3) }, leafAst 4] }

example : Tagged treeAst := by
  refine .list rfl rfl fun x hx => ?_
  simp only [List.mem_cons, List.not_mem_nil, or_false] at hx
  rcases hx with rfl | rfl | rfl
  · exact .leaf (by decide) (by decide)
  · exact .cons rfl rfl (.leaf (by decide) (by decide)) (.leaf (by decide) (by decide))
  · exact .leaf (by decide) (by decide)

/-- Callbacks that count their calls. -/
private def counting : Visitor Nat Nat String where
  there w a := .ok (w + 1, a, .none, none)
  back w a := .ok (w + 1, a, 0, .nop, none, none)
  childrenErr w _ _ _ _ := .ok (w + 1)

example : IdleVisitor counting fun _ => .none := ⟨fun w _ => ⟨w + 1, rfl⟩, fun w _ => ⟨w + 1, rfl⟩⟩
/-- Six nodes: twelve calls, and the tree comes back. -/
example : traverse counting 5 0 treeAst = .ok (12, { ast := treeAst, pcIncr := 0, op := .nop, thrown := none, err := none }) := rfl

/-- Callbacks of which the way-back callback throws at the leaf 3. -/
private def throwing : Visitor (List Nat) Nat String where
  there w a := .ok (w ++ [a.opCode.toNat], a, .none, none)
  back w a := if a.opCode = 3 then .ok (w ++ [100], a, 0, .nop, some 7, none) else .ok (w ++ [a.opCode.toNat], a, 0, .nop, none, none)
  childrenErr w a _ _ _ := .ok (w ++ [200 + a.opCode.toNat])

/-- The pair (9) is told first, then the list (0); the leaf 4 is not visited. -/
example : (traverse throwing 5 [] treeAst).bind (fun p => .ok (p.1, p.2.thrown, p.2.err)) =
    .ok ([0, 1, 1, 9, 2, 2, 3, 100, 209, 200], some 7, none) := rfl

end Takenoco
