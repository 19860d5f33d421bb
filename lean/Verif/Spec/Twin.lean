import Verif.Spec.Relational
import Verif.Spec.Peg
import Verif.Model.Gram
/-
Specification: grammars that differ only in their transformers.
-/
namespace Takenoco.Spec

/-- Two contexts at the same place of the same source, with the same status. Nothing is said about class name, quantity, tag and stack. -/
structure OnePlace (c c' : Ctx) : Prop where
  str : c'.str = c.str
  slice : c'.slice = c.slice
  pos : c'.pos = c.pos
  len : c'.len = c.len
  status : c'.status = c.status

/-- Both match and stop at the same place, where `I` holds, or both do not match, or both fail with the same error at the same
position. If one of the two panics or does not end, nothing is said. -/
inductive TwinEnd (I : Ctx → Prop) : Outcome → Outcome → Prop where
  | matched {o o' : Ctx} : OnePlace o o' → I o → TwinEnd I (.matched o) (.matched o')
  | unmatched : TwinEnd I .unmatched .unmatched
  | failed {o o' : Ctx} {e : Option Err} : o'.pos = o.pos → TwinEnd I (.failed o e) (.failed o' e)
  | panickedL {p : Panic} {y : Outcome} : TwinEnd I (.panicked p) y
  | panickedR {p : Panic} {x : Outcome} : TwinEnd I x (.panicked p)
  | timedOutL {y : Outcome} : TwinEnd I .timedOut y
  | timedOutR {x : Outcome} : TwinEnd I x .timedOut

/-- The transformers report no error for the ASTs that `g` adds. -/
def NeverRefuses (I : Ctx → Prop) (env : Env) (g : Gram) (trs : List Tr) : Prop :=
  ∀ n m c o, c.status = .matched → I c → Outcome.of (run env n g c) = .matched o →
    ∀ d l e, applyTrs d (trs.map (runTr env m)) (o.stack.drop c.stack.length) ≠ .ok (l, some e)

/-- Two grammars that differ only in transformers that report no errors. `I` is what may be assumed of the places at which the
transformers work. -/
inductive Twin (I : Ctx → Prop) (env env' : Env) : Gram → Gram → Prop where
  /-- A part that is the same in both, and finds the same whatever is on the stack. -/
  | same {g : Gram} : (∀ n c c', OnePlace c c' → c.status = .matched → I c → TwinEnd I (Outcome.of (run env n g c)) (Outcome.of (run env' n g c'))) → Twin I env env' g g
  | flatGroup {gs gs' : List Gram} : Each (Twin I env env') gs gs' → Twin I env env' (.flatGroup gs) (.flatGroup gs')
  | group {gs gs' : List Gram} : Each (Twin I env env') gs gs' → Twin I env env' (.group gs) (.group gs')
  | first {gs gs' : List Gram} : gs ≠ [] → Each (Twin I env env') gs gs' → Twin I env env' (.first gs) (.first gs')
  | lookAhead {gs gs' : List Gram} : Each (Twin I env env') gs gs' → Twin I env env' (.lookAhead gs) (.lookAhead gs')
  | lookAheadN {gs gs' : List Gram} : Each (Twin I env env') gs gs' → Twin I env env' (.lookAheadN gs) (.lookAheadN gs')
  | repeat {t : Times} {gs gs' : List Gram} : Each (Twin I env env') gs gs' → Twin I env env' (.repeat t gs) (.repeat t gs')
  | indirect {name : Nat} : Twin I env env' (.indirect name) (.indirect name)
  /-- Where they differ. -/
  | trans {g g' : Gram} {trs trs' : List Tr} : Twin I env env' g g' → NeverRefuses I env g trs → NeverRefuses I env' g' trs' →
      Twin I env env' (.trans g trs) (.trans g' trs')

end Takenoco.Spec
