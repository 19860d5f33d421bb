import Verif.Spec.Tracer
import Verif.Spec.Termination
/-
How many parsers are called: as many as a `ParserTracer` sees `Before` calls when everything is built under `DebugTrace`. Here are
grammars for which this number can be computed from the size of the source.
-/
namespace Takenoco.Spec
open Trace

/-- The event is a call of `Before`. -/
def isBefore : Event → Bool
  | .before _ _ => true
  | _ => false

/-- The number of parser calls seen by the tracers. -/
def callCount (l : List Event) : Nat := l.countP isBefore

/-- A traced grammar, or a sequence of them, or the alternatives of a choice. -/
inductive TForm where
  | gram (g : TGram)
  | seq (gs : List TGram)
  | alts (gs : List TGram)

/-- `Work tenv S e w f`: on a source of size `n` the form `f` makes at most `w n` calls, when every terminal counts for one. `e`: a match
of `f` consumes input. Grammars that use `Indirect` to come back to themselves are not included. -/
inductive Work (tenv : TEnv) (S : Sources) : Bool → (Nat → Nat) → TForm → Prop where
  | prim {e : Bool} {i : Option Info} {cls : Option String} {p : Sem} : Moves S e.toNat p → Work tenv S e (fun _ => 1) (.gram (.prim i cls p))
  | forget {w : Nat → Nat} {f : TForm} : Work tenv S true w f → Work tenv S false w f
  | nil : Work tenv S false (fun _ => 0) (.seq [])
  | cons {e e' : Bool} {w w' : Nat → Nat} {g : TGram} {gs : List TGram} : Work tenv S e w (.gram g) → Work tenv S e' w' (.seq gs) →
      Work tenv S (e || e') (fun n => w n + w' n) (.seq (g :: gs))
  | none : Work tenv S true (fun _ => 0) (.alts [])
  | alt {e e' : Bool} {w w' : Nat → Nat} {g : TGram} {gs : List TGram} : Work tenv S e w (.gram g) → Work tenv S e' w' (.alts gs) →
      Work tenv S (e && e') (fun n => w n + w' n) (.alts (g :: gs))
  | flatGroup {e : Bool} {w : Nat → Nat} {i : Option Info} {gs : List TGram} : Work tenv S e w (.seq gs) →
      Work tenv S e (fun n => 1 + w n) (.gram (.flatGroup i gs))
  | group {e : Bool} {w : Nat → Nat} {i : Option Info} {gs : List TGram} : Work tenv S e w (.seq gs) →
      Work tenv S e (fun n => 1 + w n) (.gram (.group i gs))
  | first {e : Bool} {w : Nat → Nat} {i : Option Info} {gs : List TGram} : gs ≠ [] → Work tenv S e w (.alts gs) →
      Work tenv S e (fun n => 1 + w n) (.gram (.first i gs))
  | lookAhead {e : Bool} {w : Nat → Nat} {i : Option Info} {gs : List TGram} : Work tenv S e w (.seq gs) →
      Work tenv S false (fun n => 1 + w n) (.gram (.lookAhead i gs))
  | lookAheadN {e : Bool} {w : Nat → Nat} {i : Option Info} {gs : List TGram} : Work tenv S e w (.seq gs) →
      Work tenv S false (fun n => 1 + w n) (.gram (.lookAheadN i gs))
  | lookBehind {e : Bool} {w : Nat → Nat} {i : Option Info} {a b : Int} {gs : List TGram} : 0 ≤ a → Work tenv S e w (.seq gs) →
      Work tenv S false (fun n => (b - a + 1).toNat * (1 + w n)) (.gram (.lookBehind i a b gs))
  | lookBehindN {e : Bool} {w : Nat → Nat} {i : Option Info} {a b : Int} {gs : List TGram} : 0 ≤ a → Work tenv S e w (.seq gs) →
      Work tenv S false (fun n => (b - a + 1).toNat * (1 + w n)) (.gram (.lookBehindN i a b gs))
  | times {e e' : Bool} {w : Nat → Nat} {i : Option Info} {t : Times} {gs : List TGram} : 0 ≤ t.max → Work tenv S e w (.seq gs) →
      (e' = true → e = true ∧ 1 ≤ t.min) → Work tenv S e' (fun n => 1 + t.max.toNat * w n) (.gram (.repeat i t gs))
  | loop {e' : Bool} {w : Nat → Nat} {i : Option Info} {t : Times} {gs : List TGram} : t.max < 0 → Work tenv S true w (.seq gs) →
      (e' = true → 1 ≤ t.min) → Work tenv S e' (fun n => 1 + (n + 1) * w n) (.gram (.repeat i t gs))
  | trans {e : Bool} {w : Nat → Nat} {i : Option Info} {g : TGram} {ts : List TSem} : Work tenv S e w (.gram g) →
      Work tenv S e (fun n => 1 + w n) (.gram (.trans i g (ts.map .fn)))
  | match {i : Option Info} {k : Int} {cases : List ((List Ast → Bool) × List TSem)} :
      Work tenv S false (fun _ => 1) (.gram (.match i k (cases.map fun c => (c.1, c.2.map .fn))))
  | indirect {e : Bool} {w : Nat → Nat} {i : Option Info} {name : Nat} : (∀ k, Work tenv S e w (.gram (tenv name k))) →
      Work tenv S e (fun n => 1 + w n) (.gram (.indirect i name))
  | debug {e : Bool} {w : Nat → Nat} {i : Option Info} {scope : String} {pt : Nat} {gs : List TGram} : Work tenv S e w (.seq gs) →
      Work tenv S e (fun n => 1 + w n) (.gram (.debug i scope pt gs))

end Takenoco.Spec

namespace Takenoco
open Trace

/-- `slow = First(FlatGroup("a", slow, p), FlatGroup("a", slow, "c"), "d")`; only the calls of the function given to `Indirect` are
traced, by the tracer `i`. -/
def slowBy (i : Info) (p : Sem) : TGram :=
  .first none [
    .flatGroup none [.prim none none (seqS (b! "a")), .indirect (some i) 0, .prim none none p],
    .flatGroup none [.prim none none (seqS (b! "a")), .indirect (some i) 0, .prim none none (seqS (b! "c"))],
    .prim none none (seqS (b! "d"))]

/-- `slow = First(FlatGroup("a", slow, "b"), FlatGroup("a", slow, "c"), "d")`. -/
def slow (i : Info) : TGram := slowBy i (seqS (b! "b"))

/-- `n` times `a`, then `d`, then `n` times `c`. -/
def slowText (n : Nat) : Bytes := List.replicate n 0x61 ++ 0x64 :: List.replicate n 0x63

end Takenoco
