import Verif.Spec.Combinators
import Verif.Model.Gram
/-
Big-step specification of whole grammars: what a grammar does on a context, as a relation that mentions
neither the engine (`baseParser`, its loops) nor fuel. It covers all constructors except the direct call
of `BaseParser` and the transformer `ProductionRule`.
-/
namespace Takenoco.Spec

/-- The judgements: a grammar, a sequence, an ordered choice, and a repetition that has already matched
`k` times. -/
inductive Judg where
  | gram (g : Gram)
  | seq (gs : List Gram)
  | choice (gs : List Gram)
  | reps (t : Times) (gs : List Gram) (k : Nat)

/-- Adds a change of the context to a match. -/
def Outcome.onMatch (f : Ctx → Outcome) : Outcome → Outcome
  | .matched c => f c
  | r => r

/-- A repetition ends after `k` matches. -/
def repEnd (t : Times) (k : Nat) (c : Ctx) : Outcome :=
  if t.min ≤ k then .matched { c with qty := k } else .unmatched

/-- `Rewrites ctx fs n c r`: the ASTs of `c` above the lowest `n` are rewritten by the transformers `fs`
(which also get `ctx`), giving `r`. -/
inductive Rewrites (ctx : Ctx) (fs : List TSem) (n : Nat) (c : Ctx) : Outcome → Prop where
  | ok {l : List Ast} : n ≤ c.stack.length → Pipe ctx fs (c.stack.drop n) (.ok l) →
      Rewrites ctx fs n c (.matched { c with stack := c.stack.take n ++ l, status := .matched })
  | err {e : Err} : n ≤ c.stack.length → Pipe ctx fs (c.stack.drop n) (.error e) →
      Rewrites ctx fs n c (.failed { c with status := .error } (some e))
  | panic {pre post : List TSem} {f : TSem} {l : List Ast} {p : Panic} : n ≤ c.stack.length →
      fs = pre ++ f :: post → Pipe ctx pre (c.stack.drop n) (.ok l) → f ctx l = .panic p →
      Rewrites ctx fs n c (.panicked p)
  | short : c.stack.length < n → Rewrites ctx fs n c (.panicked .index)

/-- Nothing was found at a look-behind distance: not matched, or status error without an error value. -/
def NotFound : Outcome → Prop
  | .unmatched => True
  | .failed _ none => True
  | _ => False

/-- The context from which a look-behind tries distance `i`. -/
def back (cls : String) (c : Ctx) (i : Int) : Ctx :=
  enter cls { c with pos := ((c.pos : Int) - i).toNat }

/-- `Parses env j c r`: the judgement `j`, started in the context `c`, ends as `r`. -/
inductive Parses (env : Env) : Judg → Ctx → Outcome → Prop where
  /- sequences -/
  | seqNil {c : Ctx} : Parses env (.seq []) c (.matched c)
  | seqCons {g : Gram} {gs : List Gram} {c c' : Ctx} {r : Outcome} :
      Parses env (.gram g) c (.matched c') → Parses env (.seq gs) c' r → Parses env (.seq (g :: gs)) c r
  | seqStop {g : Gram} {gs : List Gram} {c : Ctx} {r : Outcome} :
      Parses env (.gram g) c r → (∀ c', r ≠ .matched c') → Parses env (.seq (g :: gs)) c r
  /- choices -/
  | choiceNil {c : Ctx} : Parses env (.choice []) c .unmatched
  | choiceNext {g : Gram} {gs : List Gram} {c : Ctx} {r : Outcome} :
      Parses env (.gram g) c .unmatched → Parses env (.choice gs) c r → Parses env (.choice (g :: gs)) c r
  | choiceTake {g : Gram} {gs : List Gram} {c : Ctx} {r : Outcome} :
      Parses env (.gram g) c r → r ≠ .unmatched → Parses env (.choice (g :: gs)) c r
  /- repetitions -/
  | repsMax {t : Times} {gs : List Gram} {k : Nat} {c : Ctx} :
      t.max = k → Parses env (.reps t gs k) c (repEnd t k c)
  | repsEnd {t : Times} {gs : List Gram} {k : Nat} {c : Ctx} :
      t.max ≠ k → Parses env (.seq gs) c .unmatched → Parses env (.reps t gs k) c (repEnd t k c)
  | repsFail {t : Times} {gs : List Gram} {k : Nat} {c : Ctx} {r : Outcome} :
      t.max ≠ k → Parses env (.seq gs) c r → r ≠ .unmatched → (∀ c', r ≠ .matched c') →
      Parses env (.reps t gs k) c r
  | repsNext {t : Times} {gs : List Gram} {k : Nat} {c c' : Ctx} {r : Outcome} :
      t.max ≠ k → Parses env (.seq gs) c (.matched c') →
      Parses env (.reps t gs (k + 1)) { c' with qty := k } r → Parses env (.reps t gs k) c r
  /- grammars -/
  | prim {p : Sem} {c : Ctx} {r : Outcome} : Outcome.of (p c) = r → r ≠ .timedOut →
      Parses env (.gram (.prim p)) c r
  | flatGroup {gs : List Gram} {c : Ctx} {r : Outcome} :
      Parses env (.seq gs) (enter ":base:FlatGroup" c) r →
      Parses env (.gram (.flatGroup gs)) c (r.onMatch fun c' => .matched { c' with qty := 1 })
  | group {gs : List Gram} {c : Ctx} {r : Outcome} :
      Parses env (.seq gs) (enter ":base:Group" c) r →
      Parses env (.gram (.group gs)) c (r.onMatch fun c' =>
        if c'.stack.length < c.stack.length then .panicked .index
        else .matched { c' with
          qty := 1
          stack := c'.stack.take c.stack.length ++
            [{ Ast.zero with cls := ":base:Group", ty := .listOfAst,
                             val := .list (c'.stack.drop c.stack.length) }] })
  | first {gs : List Gram} {c : Ctx} {r : Outcome} : gs ≠ [] →
      Parses env (.choice gs) (enter ":base:First" c) r →
      Parses env (.gram (.first gs)) c (r.onMatch fun c' => .matched { c' with qty := 1 })
  | firstNil {c : Ctx} : Parses env (.gram (.first [])) c (.matched { enter ":base:First" c with qty := 1 })
  | lookAhead {gs : List Gram} {c : Ctx} {r : Outcome} :
      Parses env (.seq gs) (enter ":base:LookAhead" c) r →
      Parses env (.gram (.lookAhead gs)) c (r.onMatch fun _ => .matched { c with cls := ":base:LookAhead" })
  | lookAheadN_no {gs : List Gram} {c c' : Ctx} :
      Parses env (.seq gs) (enter ":base:LookAheadN" c) (.matched c') →
      Parses env (.gram (.lookAheadN gs)) c .unmatched
  | lookAheadN_yes {gs : List Gram} {c : Ctx} :
      Parses env (.seq gs) (enter ":base:LookAheadN" c) .unmatched →
      Parses env (.gram (.lookAheadN gs)) c (.matched { c with cls := ":base:LookAheadN" })
  | lookAheadN_stop {gs : List Gram} {c : Ctx} {r : Outcome} :
      Parses env (.seq gs) (enter ":base:LookAheadN" c) r → r ≠ .unmatched → (∀ c', r ≠ .matched c') →
      Parses env (.gram (.lookAheadN gs)) c r
  | lookBehind {a b i : Int} {gs : List Gram} {c : Ctx} {r : Outcome} {R : Int → Outcome} :
      a ≤ i → i ≤ b → i ≤ c.pos →
      (∀ j, a ≤ j → j < i → j ≤ c.pos → Parses env (.seq gs) (back ":base:LookBehind" c j) (R j)) →
      (∀ j, a ≤ j → j < i → j ≤ c.pos → NotFound (R j)) →
      Parses env (.seq gs) (back ":base:LookBehind" c i) r → ¬ NotFound r →
      Parses env (.gram (.lookBehind a b gs)) c (r.onMatch fun _ => .matched c)
  | lookBehind_none {a b : Int} {gs : List Gram} {c : Ctx} {R : Int → Outcome} :
      (∀ j, a ≤ j → j ≤ b → j ≤ c.pos → Parses env (.seq gs) (back ":base:LookBehind" c j) (R j)) →
      (∀ j, a ≤ j → j ≤ b → j ≤ c.pos → NotFound (R j)) →
      Parses env (.gram (.lookBehind a b gs)) c .unmatched
  | lookBehindN {a b i : Int} {gs : List Gram} {c : Ctx} {r : Outcome} {R : Int → Outcome} :
      a ≤ i → i ≤ b → i ≤ c.pos →
      (∀ j, a ≤ j → j < i → j ≤ c.pos → Parses env (.seq gs) (back ":base:LookBehindN" c j) (R j)) →
      (∀ j, a ≤ j → j < i → j ≤ c.pos → NotFound (R j)) →
      Parses env (.seq gs) (back ":base:LookBehindN" c i) r → ¬ NotFound r →
      Parses env (.gram (.lookBehindN a b gs)) c (r.onMatch fun _ => .unmatched)
  | lookBehindN_none {a b : Int} {gs : List Gram} {c : Ctx} {R : Int → Outcome} :
      (∀ j, a ≤ j → j ≤ b → j ≤ c.pos → Parses env (.seq gs) (back ":base:LookBehindN" c j) (R j)) →
      (∀ j, a ≤ j → j ≤ b → j ≤ c.pos → NotFound (R j)) →
      Parses env (.gram (.lookBehindN a b gs)) c (.matched c)
  | repeat {t : Times} {gs : List Gram} {c : Ctx} {r : Outcome} :
      Parses env (.reps t gs 0) (enter ":base:Repeat" c) r → Parses env (.gram (.repeat t gs)) c r
  | trans_stop {g : Gram} {ts : List Tr} {c : Ctx} {r : Outcome} :
      Parses env (.gram g) (enter ":base:Trans" c) r → (∀ c', r ≠ .matched c') →
      Parses env (.gram (.trans g ts)) c r
  | trans_none {g : Gram} {c c' : Ctx} :
      Parses env (.gram g) (enter ":base:Trans" c) (.matched c') →
      Parses env (.gram (.trans g [])) c (.matched { c' with qty := 1 })
  | trans {g : Gram} {fs : List TSem} {c c' : Ctx} {r : Outcome} :
      Parses env (.gram g) (enter ":base:Trans" c) (.matched c') → fs ≠ [] →
      Rewrites { c with cls := ":base:Trans" } fs c.stack.length { c' with qty := 1 } r →
      Parses env (.gram (.trans g (fs.map .fn))) c r
  | indirect {i : Nat} {c : Ctx} {r : Outcome} :
      Parses env (.gram (env i)) c r →
      Parses env (.gram (.indirect i)) c (match r with
        | .matched c' => .matched { c' with qty := 1, cls := ":base:Indirect" }
        | .failed c' e => .failed { c' with cls := ":base:Indirect" } e
        | r => r)
  | match_none {n : Int} {cases : List ((List Ast → Bool) × List Tr)} {c : Ctx} :
      (∀ x ∈ cases, x.1 c.stack = false) → Parses env (.gram (.match n cases)) c .unmatched
  | match_range {n : Int} {pre post : List ((List Ast → Bool) × List Tr)} {guard : List Ast → Bool}
      {ts : List Tr} {c : Ctx} :
      (∀ x ∈ pre, x.1 c.stack = false) → guard c.stack = true → ¬ (0 ≤ n ∧ n ≤ c.stack.length) →
      Parses env (.gram (.match n (pre ++ (guard, ts) :: post))) c (.panicked .index)
  | match {n : Nat} {pre post : List ((List Ast → Bool) × List Tr)} {guard : List Ast → Bool}
      {fs : List TSem} {c : Ctx} {r : Outcome} :
      (∀ x ∈ pre, x.1 c.stack = false) → guard c.stack = true → n ≤ c.stack.length →
      Rewrites { c with len := 0, status := .unmatched } fs (c.stack.length - n) { c with len := 0 } r →
      Parses env (.gram (.match n (pre ++ (guard, fs.map .fn) :: post))) c (match r with
        | .matched c' => .matched { c' with qty := 1, cls := "Match" }
        | .failed c' e => .failed { c' with cls := "Match" } e
        | r => r)

/-- Grammars without direct calls of `BaseParser` and without `ProductionRule`. -/
inductive Plain : Gram → Prop where
  | prim {p : Sem} : Plain (.prim p)
  | flatGroup {gs : List Gram} : (∀ g ∈ gs, Plain g) → Plain (.flatGroup gs)
  | group {gs : List Gram} : (∀ g ∈ gs, Plain g) → Plain (.group gs)
  | first {gs : List Gram} : (∀ g ∈ gs, Plain g) → Plain (.first gs)
  | lookAhead {gs : List Gram} : (∀ g ∈ gs, Plain g) → Plain (.lookAhead gs)
  | lookAheadN {gs : List Gram} : (∀ g ∈ gs, Plain g) → Plain (.lookAheadN gs)
  | lookBehind {a b : Int} {gs : List Gram} : (∀ g ∈ gs, Plain g) → Plain (.lookBehind a b gs)
  | lookBehindN {a b : Int} {gs : List Gram} : (∀ g ∈ gs, Plain g) → Plain (.lookBehindN a b gs)
  | repeat {t : Times} {gs : List Gram} : (∀ g ∈ gs, Plain g) → Plain (.repeat t gs)
  | trans {g : Gram} {fs : List TSem} : Plain g → Plain (.trans g (fs.map .fn))
  | indirect {i : Nat} : Plain (.indirect i)
  | match {n : Int} {cases : List ((List Ast → Bool) × List TSem)} :
      Plain (.match n (cases.map fun x => (x.1, x.2.map .fn)))

end Takenoco.Spec
