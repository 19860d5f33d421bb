import Verif.Spec.Peg
import Verif.Model.Parsers
/-
Specification vocabulary used by the statements about combinators: transformer pipelines, look-behind,
and reachability of a sub-parser.
-/
namespace Takenoco.Spec

/-- `Pipe ctx ts asts r`: applying the transformers `ts` from left to right to `asts` ends in the list
`r` (`.ok`) or in an error (`.error`). -/
inductive Pipe (ctx : Ctx) : List TSem → List Ast → Except Err (List Ast) → Prop where
  | done {asts : List Ast} : Pipe ctx [] asts (.ok asts)
  | step {t : TSem} {ts : List TSem} {asts asts' : List Ast} {r : Except Err (List Ast)} :
      t ctx asts = .ok (asts', none) → Pipe ctx ts asts' r → Pipe ctx (t :: ts) asts r
  | fail {t : TSem} {ts : List TSem} {asts asts' : List Ast} {e : Err} :
      t ctx asts = .ok (asts', some e) → Pipe ctx (t :: ts) asts (.error e)

/-- The sequence `ps` started `i` units before the position of `c` ends as `r`. -/
def BehindAt (cls : String) (ps : List Sem) (c : Ctx) (i : Int) (r : Outcome) : Prop :=
  Seq ps (enter cls { c with pos := ((c.pos : Int) - i).toNat }) r

/-- Contexts that differ at most in the class name. -/
def SameButCls (a b : Ctx) : Prop := { a with cls := "" } = { b with cls := "" }

/-- `Reaches p c q d`: when the parser `p`, built with the library's combinators, is run on the context
`c`, then the sub-parser `q` of `p` is run on the context `d` (and everything before it has gone well).
The rules follow the documented meaning of the combinators. -/
inductive Reaches : Sem → Ctx → Sem → Ctx → Prop where
  | here {p : Sem} {c : Ctx} : Reaches p c p c
  | flatGroup {pre post : List Sem} {p q : Sem} {c c1 d : Ctx} :
      Seq pre (enter ":base:FlatGroup" c) (.matched c1) → Reaches p c1 q d →
      Reaches (Takenoco.flatGroup (pre ++ p :: post)) c q d
  | group {pre post : List Sem} {p q : Sem} {c c1 d : Ctx} :
      Seq pre (enter ":base:Group" c) (.matched c1) → Reaches p c1 q d →
      Reaches (Takenoco.group (pre ++ p :: post)) c q d
  | first {pre post : List Sem} {p q : Sem} {c d : Ctx} :
      (∀ p' ∈ pre, Outcome.of (p' (enter ":base:First" c)) = .unmatched) →
      Reaches p (enter ":base:First" c) q d →
      Reaches (Takenoco.first (pre ++ p :: post)) c q d
  | lookAhead {pre post : List Sem} {p q : Sem} {c c1 d : Ctx} :
      Seq pre (enter ":base:LookAhead" c) (.matched c1) → Reaches p c1 q d →
      Reaches (Takenoco.lookAhead (pre ++ p :: post)) c q d
  | lookAheadN {pre post : List Sem} {p q : Sem} {c c1 d : Ctx} :
      Seq pre (enter ":base:LookAheadN" c) (.matched c1) → Reaches p c1 q d →
      Reaches (Takenoco.lookAheadN (pre ++ p :: post)) c q d
  | lookBehind {minN maxN i : Int} {pre post : List Sem} {p q : Sem} {c c1 d : Ctx} :
      minN ≤ i → i ≤ maxN → i ≤ c.pos →
      (∀ j, minN ≤ j → j < i → j ≤ c.pos → BehindAt ":base:LookBehind" (pre ++ p :: post) c j .unmatched) →
      BehindAt ":base:LookBehind" pre c i (.matched c1) → Reaches p c1 q d →
      Reaches (Takenoco.lookBehind minN maxN (pre ++ p :: post)) c q d
  | lookBehindN {minN maxN i : Int} {pre post : List Sem} {p q : Sem} {c c1 d : Ctx} :
      minN ≤ i → i ≤ maxN → i ≤ c.pos →
      (∀ j, minN ≤ j → j < i → j ≤ c.pos → BehindAt ":base:LookBehindN" (pre ++ p :: post) c j .unmatched) →
      BehindAt ":base:LookBehindN" pre c i (.matched c1) → Reaches p c1 q d →
      Reaches (Takenoco.lookBehindN minN maxN (pre ++ p :: post)) c q d
  | repeat {fuel n : Nat} {t : Times} {pre post : List Sem} {p q : Sem} {c c1 c2 d : Ctx} :
      Reps (pre ++ p :: post) 0 (enter ":base:Repeat" c) n c1 →
      (if t.max < 0 then n < fuel else (n : Int) < t.max) →
      Seq pre c1 (.matched c2) → Reaches p c2 q d →
      Reaches (repeatP fuel t (pre ++ p :: post)) c q d
  | trans {tr : List TSem} {p q : Sem} {c d : Ctx} :
      Reaches p (enter ":base:Trans" c) q d → Reaches (Takenoco.trans p tr) c q d
  | indirect {p q : Sem} {c d : Ctx} : Reaches p c q d → Reaches (Takenoco.indirect p) c q d

end Takenoco.Spec
