import Verif.Lemmas.LazySteady
import Verif.Model.StrParsers
/-
C108: what `Indirect` keeps.
-/
namespace Takenoco
open Spec

/-- **C108.** `Indirect` calls its function when it is used for the first time and keeps the parser. If the function builds the same grammar each time (with
new `Indirect` parsers in it, which have variables of their own), this is not seen: the result is that of calling the function each time, whatever the
variables hold from earlier parses; and they hold such grammars afterwards. -/
theorem C108_same (env : Env) (mk : Lazy.Maker) (nameOf : Nat → Nat) (he : ∀ name k, (mk name k).rename nameOf = env name) (n : Nat) (g : Gram) (c : Ctx)
    (s : Lazy.Cells) (hs : MadeBy env nameOf s) :
    (Lazy.run mk nameOf n g c s).1 = run env n (g.rename nameOf) c ∧ MadeBy env nameOf (Lazy.run mk nameOf n g c s).2 := by
  obtain ⟨h1, h2, -⟩ := (Lazy.agrees_run he n).1 g c s hs
  exact ⟨h1, h2⟩

/-- **C108.** Whatever the functions return: each variable is set at most once, with one call of the function, and never changed again. -/
theorem C108_once (mk : Lazy.Maker) (nameOf : Nat → Nat) (n : Nat) (g : Gram) (c : Ctx) (s : Lazy.Cells) : Later s (Lazy.run mk nameOf n g c s).2 :=
  ((Lazy.steady_run mk nameOf n).1 g c s).1

/-- **C108.** Whatever the functions return, also if they return something else each time: the same parse later on, with any parses in between, gives the
same result again and calls none of the functions. -/
theorem C108_again (mk : Lazy.Maker) (nameOf : Nat → Nat) (n : Nat) (g : Gram) (c : Ctx) (s t : Lazy.Cells) (h : Retains (Lazy.run mk nameOf n g c s).2 t) :
    Lazy.run mk nameOf n g c t = ((Lazy.run mk nameOf n g c s).1, t) :=
  ((Lazy.steady_run mk nameOf n).1 g c s).2 t h

/-- Parses one after the other. -/
def lazyParses (mk : Lazy.Maker) (nameOf : Nat → Nat) (n : Nat) : List (Gram × Ctx) → Lazy.Cells → List (Out PRes)
  | [], _ => []
  | (g, c) :: l, s => (Lazy.run mk nameOf n g c s).1 :: lazyParses mk nameOf n l (Lazy.run mk nameOf n g c s).2

/-- **C108.** So what was parsed before does not matter, also if parses end with an error or a panic: each parse has the result that it has alone. -/
theorem C108_parses (env : Env) (mk : Lazy.Maker) (nameOf : Nat → Nat) (he : ∀ name k, (mk name k).rename nameOf = env name) (n : Nat) (l : List (Gram × Ctx)) :
    lazyParses mk nameOf n l unset = l.map fun p => run env n (p.1.rename nameOf) p.2 := by
  suffices ∀ s, MadeBy env nameOf s → lazyParses mk nameOf n l s = l.map fun p => run env n (p.1.rename nameOf) p.2 from this unset nofun
  induction l with
  | nil => exact fun _ _ => rfl
  | cons p l ih =>
    intro s hs
    obtain ⟨h1, h2⟩ := C108_same env mk nameOf he n p.1 p.2 s hs
    rw [lazyParses, List.map_cons, h1, ih _ h2]

/-! ### Examples -/

/-- `func nest() ParserFn { return First(FlatGroup(Seq("("), Indirect(nest), Seq(")")), Seq("x")) }`; the call number `k` makes the `Indirect` parser `k + 1`. -/
def nestMaker : Lazy.Maker := fun _ k => .first [.flatGroup [.prim (seqS (b! "(")), .indirect (k + 1), .prim (seqS (b! ")"))], .prim (seqS (b! "x"))]

def nestEnv : Env := fun _ => .first [.flatGroup [.prim (seqS (b! "(")), .indirect 0, .prim (seqS (b! ")"))], .prim (seqS (b! "x"))]

example : ∀ name k, (nestMaker name k).rename (fun _ => 0) = nestEnv name := fun _ _ => rfl

/-- How many calls of functions passed to `Indirect` there have been after these parses of texts with `Indirect(nest)`. -/
def nestCalls : List Bytes → Lazy.Cells → Nat
  | [], s => s.calls
  | t :: l, s => nestCalls l (Lazy.run nestMaker (fun _ => 0) 30 (.indirect 0) (newStrCtx t) s).2

/-- One copy of the grammar for each level of brackets, which later parses use. -/
example : nestCalls [b! "((x))"] unset = 3 ∧ nestCalls [b! "((x))", b! "(x)", b! "((x))"] unset = 3 ∧ nestCalls [b! "x", b! "(((x", b! "x"] unset = 4 :=
  ⟨by cbv, by cbv, by cbv⟩

/-- A function that returns `Any()` at first and `Unmatched()` later. -/
def fickle : Lazy.Maker := fun _ k => if k = 0 then .prim anyS else .prim unmatchedP

/-- `Indirect` keeps what it got: the second parse matches as well; a second `Indirect` with the same function does not match. -/
example : (lazyParses fickle (fun _ => 0) 9 [(.indirect 0, newStrCtx (b! "a")), (.indirect 0, newStrCtx (b! "a")), (.indirect 1, newStrCtx (b! "a"))] unset).map
    (fun r => match r with | .ok (o, _) => o.status | _ => .error) = [.matched, .matched, .unmatched] := by cbv

#print axioms C108_same
#print axioms C108_once
#print axioms C108_again
#print axioms C108_parses

end Takenoco
