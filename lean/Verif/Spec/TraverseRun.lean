import Verif.Model.Traverse
/-
Specification of `Ast.Traverse` for all callbacks: how a traversal ends, without a bound on its depth and length.
-/
namespace Takenoco.Spec
variable {σ T E : Type}

/-- The way-back callback decides: it returns these values, or panics. -/
inductive Leaves (v : Visitor σ T E) (w : σ) (s : Ast) : Out (σ × Visited T E) → Prop where
  | returns {w' : σ} {out : Ast} {pc : Int} {op : TraverseOpcode} {th : Option T} {e : Option E} :
      v.back w s = .ok (w', out, pc, op, th, e) → Leaves v w s (.ok (w', ⟨out, pc, op, th, e⟩))
  | panics {p : Panic} : v.back w s = .panic p → Leaves v w s (.panic p)

/-- The node `s` is told that its child failed; the failure is passed on, without a jump. -/
inductive Tells (v : Visitor σ T E) (w : σ) (s child : Ast) (th : Option T) (e : Option E) : Out (σ × Visited T E) → Prop where
  | returns {w' : σ} : v.childrenErr w s child th e = .ok w' → Tells v w s child th e (.ok (w', ⟨s, 0, .nop, th, e⟩))
  | panics {p : Panic} : v.childrenErr w s child th e = .panic p → Tells v w s child th e (.panic p)

/-- Nothing was thrown and there is no error. -/
def Visited.Fine (r : Visited T E) : Prop := r.thrown = none ∧ r.err = none

/-- Where a program goes on after its instruction `i` of `len` has returned this: by default to the next one, with `Break` behind the
last one, with `Continue` to the first one, and from there as many instructions on as the increment says. -/
def jump (len i : Int) : TraverseOpcode → Int → Int
  | .nop, pc => i + 1 + pc
  | .other, pc => i + 1 + pc
  | .break_, pc => len + pc
  | .continue_, pc => pc

mutual
/-- How the traversal of a tree ends. -/
inductive Traversal (v : Visitor σ T E) : σ → Ast → Out (σ × Visited T E) → Prop where
  | panics {w : σ} {a : Ast} {p : Panic} : v.there w a = .panic p → Traversal v w a (.panic p)
  | refused {w w' : σ} {a s : Ast} {mode : WayThereMode} {e : E} : v.there w a = .ok (w', s, mode, some e) →
      Traversal v w a (.ok (w', ⟨s, 0, .nop, none, some e⟩))
  | leaf {w w' : σ} {a s : Ast} {mode : WayThereMode} {o : Out (σ × Visited T E)} : v.there w a = .ok (w', s, mode, none) →
      mode = .lazy ∨ s.ty ≠ .astCons ∧ s.ty ≠ .listOfAst → Leaves v w' s o → Traversal v w a o
  | pair {w w' : σ} {a s x y : Ast} {mode : WayThereMode} {o : Out (σ × Visited T E)} : v.there w a = .ok (w', s, mode, none) →
      mode ≠ .lazy → s.ty = .astCons → s.val = .cons x y → PairTraversal v s w' x y o → Traversal v w a o
  | list {w w' : σ} {a s : Ast} {l : List Ast} {o : Out (σ × Visited T E)} : v.there w a = .ok (w', s, .none, none) →
      s.ty = .listOfAst → s.val = .list l → ListTraversal v s w' [] l o → Traversal v w a o
  | program {w w' : σ} {a s : Ast} {l : List Ast} {o : Out (σ × Visited T E)} : v.there w a = .ok (w', s, .last, none) →
      s.ty = .listOfAst → s.val = .list l → Program v s l w' (if l = [] then [] else [Ast.zero]) 0 o → Traversal v w a o
  | nilValue {w w' : σ} {a s : Ast} {mode : WayThereMode} : v.there w a = .ok (w', s, mode, none) →
      mode ≠ .lazy → s.ty = .astCons ∨ s.ty = .listOfAst → s.val = .nil → Traversal v w a (.panic .nilDeref)
  | badPair {w w' : σ} {a s : Ast} {mode : WayThereMode} : v.there w a = .ok (w', s, mode, none) →
      mode ≠ .lazy → s.ty = .astCons → s.val ≠ .nil → (∀ x y, s.val ≠ .cons x y) → Traversal v w a (.panic .memory)
  | badList {w w' : σ} {a s : Ast} {mode : WayThereMode} : v.there w a = .ok (w', s, mode, none) →
      mode ≠ .lazy → s.ty = .listOfAst → s.val ≠ .nil → (∀ l, s.val ≠ .list l) → Traversal v w a (.panic .memory)

/-- How the traversal of the children `x`, `y` of a pair ends. The failing child is passed as it was returned. -/
inductive PairTraversal (v : Visitor σ T E) : Ast → σ → Ast → Ast → Out (σ × Visited T E) → Prop where
  | first {s x y : Ast} {w : σ} {p : Panic} : Traversal v w x (.panic p) → PairTraversal v s w x y (.panic p)
  | firstFails {s x y : Ast} {w w' : σ} {r : Visited T E} {o : Out (σ × Visited T E)} : Traversal v w x (.ok (w', r)) → ¬ Visited.Fine r →
      Tells v w' s r.ast r.thrown r.err o → PairTraversal v s w x y o
  | second {s x y : Ast} {w w' : σ} {r : Visited T E} {p : Panic} : Traversal v w x (.ok (w', r)) → Visited.Fine r → Traversal v w' y (.panic p) →
      PairTraversal v s w x y (.panic p)
  | secondFails {s x y : Ast} {w w' w'' : σ} {r r' : Visited T E} {o : Out (σ × Visited T E)} : Traversal v w x (.ok (w', r)) → Visited.Fine r →
      Traversal v w' y (.ok (w'', r')) → ¬ Visited.Fine r' → Tells v w'' s r'.ast r'.thrown r'.err o → PairTraversal v s w x y o
  | both {s x y : Ast} {w w' w'' : σ} {r r' : Visited T E} {o : Out (σ × Visited T E)} : Traversal v w x (.ok (w', r)) → Visited.Fine r →
      Traversal v w' y (.ok (w'', r')) → Visited.Fine r' → Leaves v w'' { s with val := .cons r.ast r'.ast } o → PairTraversal v s w x y o

/-- How the traversal of the remaining children of a list ends; `done` are the results for those before. The failing child is passed as
it was before its traversal. -/
inductive ListTraversal (v : Visitor σ T E) : Ast → σ → List Ast → List Ast → Out (σ × Visited T E) → Prop where
  | done {s : Ast} {w : σ} {done : List Ast} {o : Out (σ × Visited T E)} : Leaves v w { s with val := .list done } o → ListTraversal v s w done [] o
  | panics {s x : Ast} {w : σ} {done xs : List Ast} {p : Panic} : Traversal v w x (.panic p) → ListTraversal v s w done (x :: xs) (.panic p)
  | fails {s x : Ast} {w w' : σ} {done xs : List Ast} {r : Visited T E} {o : Out (σ × Visited T E)} : Traversal v w x (.ok (w', r)) → ¬ Visited.Fine r →
      Tells v w' s x r.thrown r.err o → ListTraversal v s w done (x :: xs) o
  | next {s x : Ast} {w w' : σ} {done xs : List Ast} {r : Visited T E} {o : Out (σ × Visited T E)} : Traversal v w x (.ok (w', r)) → Visited.Fine r →
      ListTraversal v s w' (done ++ [r.ast]) xs o → ListTraversal v s w done (x :: xs) o

/-- How a list that is run as a program ends, from its instruction `i`; `res` is the value it has at the moment: the result of the last
instruction that was no jump. -/
inductive Program (v : Visitor σ T E) : Ast → List Ast → σ → List Ast → Int → Out (σ × Visited T E) → Prop where
  | done {s : Ast} {l : List Ast} {w : σ} {res : List Ast} {i : Int} {o : Out (σ × Visited T E)} : l.length ≤ i →
      Leaves v w { s with val := .list res } o → Program v s l w res i o
  | before {s : Ast} {l : List Ast} {w : σ} {res : List Ast} {i : Int} : i < 0 → i < l.length → Program v s l w res i (.panic .index)
  | panics {s x : Ast} {l : List Ast} {w : σ} {res : List Ast} {i : Nat} {p : Panic} : l[i]? = some x → Traversal v w x (.panic p) →
      Program v s l w res i (.panic p)
  | fails {s x : Ast} {l : List Ast} {w w' : σ} {res : List Ast} {i : Nat} {r : Visited T E} {o : Out (σ × Visited T E)} : l[i]? = some x →
      Traversal v w x (.ok (w', r)) → ¬ Visited.Fine r → Tells v w' s x r.thrown r.err o → Program v s l w res i o
  | next {s x : Ast} {l : List Ast} {w w' : σ} {res : List Ast} {i : Nat} {r : Visited T E} {o : Out (σ × Visited T E)} : l[i]? = some x →
      Traversal v w x (.ok (w', r)) → Visited.Fine r → Program v s l w' (if r.op = .nop then [r.ast] else res) (jump l.length i r.op r.pcIncr) o →
      Program v s l w res i o
end

mutual
/-- `Rebuilt f mode a b`: replacing, from the leaves upwards, every node of `a` by what `f` makes of it gives `b`. Below the nodes where
`mode` is lazy nothing is replaced. -/
inductive Rebuilt (f : Ast → Ast) (lazy : Ast → Prop) : Ast → Ast → Prop where
  | leaf {a : Ast} : lazy a ∨ a.ty ≠ .astCons ∧ a.ty ≠ .listOfAst → Rebuilt f lazy a (f a)
  | pair {a x y x' y' : Ast} : ¬ lazy a → a.ty = .astCons → a.val = .cons x y → Rebuilt f lazy x x' → Rebuilt f lazy y y' →
      Rebuilt f lazy a (f { a with val := .cons x' y' })
  | list {a : Ast} {l l' : List Ast} : ¬ lazy a → a.ty = .listOfAst → a.val = .list l → RebuiltAll f lazy l l' →
      Rebuilt f lazy a (f { a with val := .list l' })

/-- One by one. -/
inductive RebuiltAll (f : Ast → Ast) (lazy : Ast → Prop) : List Ast → List Ast → Prop where
  | nil : RebuiltAll f lazy [] []
  | cons {a b : Ast} {l m : List Ast} : Rebuilt f lazy a b → RebuiltAll f lazy l m → RebuiltAll f lazy (a :: l) (b :: m)
end

/-- The callbacks leave the tree on the way there and replace the node by `f` of it on the way back. -/
structure ReplacesNodes (v : Visitor σ T E) (f : Ast → Ast) (mode : Ast → WayThereMode) : Prop where
  there : ∀ w a, ∃ w', v.there w a = .ok (w', a, mode a, none)
  back : ∀ w a, ∃ w' pc op, v.back w a = .ok (w', f a, pc, op, none, none)

end Takenoco.Spec
