import Verif.Model.Tracer
/-
Specification vocabulary for tracing.
-/
namespace Takenoco

/-- The wrapped parser that made the call. -/
def Trace.Event.info : Trace.Event → Trace.Info
  | .before i _ | .after i _ _ | .panic i _ _ => i

namespace Spec
open Trace

/-- `Before` and `After` calls that are properly nested: each `After` belongs to the last `Before` without one. -/
inductive Balanced : List Event → Prop where
  | nil : Balanced []
  | frame {inner rest : List Event} (i : Info) (ctx out : Ctx) (err : Option Err) : Balanced inner → Balanced rest →
      Balanced (.before i ctx :: inner ++ .after i out err :: rest)

/-- The calls up to a panic `r` that nobody recovered: every parser that had been entered is left by a `Panic` call with the
context it was entered with, the innermost first. -/
inductive Crashed (r : Panic) : List Event → Prop where
  | here {l : List Event} : Balanced l → Crashed r l
  | frame {before inner : List Event} (i : Info) (ctx : Ctx) : Balanced before → Crashed r inner →
      Crashed r (before ++ .before i ctx :: inner ++ [.panic i ctx r])

end Spec

/-- Whether the parser is wrapped for tracing. -/
def TGram.info : TGram → Option Trace.Info
  | .prim i _ _ | .flatGroup i _ | .group i _ | .first i _ | .lookAhead i _ | .lookAheadN i _ | .lookBehind i _ _ _
  | .lookBehindN i _ _ _ | .repeat i _ _ | .trans i _ _ | .indirect i _ | .match i _ _ | .base i _ _ _ _ _ | .debug i _ _ _ => i

/-- The class name of the parser, if it is made by `LightBaseParser` or `BaseParser`. -/
def TGram.className : TGram → Option String
  | .prim _ cls _ => cls
  | .flatGroup _ _ => some ":base:FlatGroup"
  | .group _ _ => some ":base:Group"
  | .first _ _ => some ":base:First"
  | .lookAhead _ _ => some ":base:LookAhead"
  | .lookAheadN _ _ => some ":base:LookAheadN"
  | .lookBehind _ _ _ _ => some ":base:LookBehind"
  | .lookBehindN _ _ _ _ => some ":base:LookBehindN"
  | .repeat _ _ _ => some ":base:Repeat"
  | .trans _ _ _ => some ":base:Trans"
  | .indirect _ _ => some ":base:Indirect"
  | .match _ _ _ => some "Match"
  | .base _ cls _ _ _ _ => some cls
  | .debug _ _ _ _ => some ":Base:DebugTrace"

/-- The parser is made by `DebugTrace`. -/
def TGram.isDebug : TGram → Bool
  | .debug _ _ _ _ => true
  | _ => false

mutual
/-- `P` holds for the grammar and all grammars in it. -/
def TGram.All (P : TGram → Prop) : TGram → Prop
  | .prim i cls p => P (.prim i cls p)
  | .flatGroup i gs => P (.flatGroup i gs) ∧ AllList P gs
  | .group i gs => P (.group i gs) ∧ AllList P gs
  | .first i gs => P (.first i gs) ∧ AllList P gs
  | .lookAhead i gs => P (.lookAhead i gs) ∧ AllList P gs
  | .lookAheadN i gs => P (.lookAheadN i gs) ∧ AllList P gs
  | .lookBehind i a b gs => P (.lookBehind i a b gs) ∧ AllList P gs
  | .lookBehindN i a b gs => P (.lookBehindN i a b gs) ∧ AllList P gs
  | .repeat i t gs => P (.repeat i t gs) ∧ AllList P gs
  | .trans i g trs => P (.trans i g trs) ∧ g.All P ∧ AllTrs P trs
  | .indirect i name => P (.indirect i name)
  | .match i n cases => P (.match i n cases) ∧ AllCases P cases
  | .base i cls fn props gs tr => P (.base i cls fn props gs tr) ∧ AllList P gs ∧ AllOpt P tr
  | .debug i scope pt gs => P (.debug i scope pt gs) ∧ AllList P gs

/-- The same for a list. -/
def AllList (P : TGram → Prop) : List TGram → Prop
  | [] => True
  | g :: gs => g.All P ∧ AllList P gs

/-- The same for a transformer. -/
def TTr.All (P : TGram → Prop) : TTr → Prop
  | .fn _ => True
  | .production precs check => AllPrecs P precs ∧ check.All P

/-- The same for a list of transformers. -/
def AllTrs (P : TGram → Prop) : List TTr → Prop
  | [] => True
  | t :: ts => t.All P ∧ AllTrs P ts

/-- The same for the transformers of `BaseParser`. -/
def AllOpt (P : TGram → Prop) : Option (List TTr) → Prop
  | none => True
  | some ts => AllTrs P ts

/-- The same for a case of `Match`. -/
def AllCase (P : TGram → Prop) : (List Ast → Bool) × List TTr → Prop
  | (_, ts) => AllTrs P ts

/-- The same for the cases of `Match`. -/
def AllCases (P : TGram → Prop) : List ((List Ast → Bool) × List TTr) → Prop
  | [] => True
  | c :: cs => AllCase P c ∧ AllCases P cs

/-- The same for a precedence of `ProductionRule`. -/
def AllPrec (P : TGram → Prop) : List TGram × Bool → Prop
  | (gs, _) => AllList P gs

/-- The same for the precedences of `ProductionRule`. -/
def AllPrecs (P : TGram → Prop) : List (List TGram × Bool) → Prop
  | [] => True
  | p :: ps => AllPrec P p ∧ AllPrecs P ps
end

/-- The tracking number of a wrapped parser. -/
def numberOf : Option Trace.Info → List Nat
  | some i => [i.no]
  | none => []

mutual
/-- The tracking numbers of the wrapped parsers in a grammar, those of its parts first. -/
def TGram.numbers : TGram → List Nat
  | .prim i _ _ => numberOf i
  | .flatGroup i gs => numbersList gs ++ numberOf i
  | .group i gs => numbersList gs ++ numberOf i
  | .first i gs => numbersList gs ++ numberOf i
  | .lookAhead i gs => numbersList gs ++ numberOf i
  | .lookAheadN i gs => numbersList gs ++ numberOf i
  | .lookBehind i _ _ gs => numbersList gs ++ numberOf i
  | .lookBehindN i _ _ gs => numbersList gs ++ numberOf i
  | .repeat i _ gs => numbersList gs ++ numberOf i
  | .trans i g trs => g.numbers ++ numbersTrs trs ++ numberOf i
  | .indirect i _ => numberOf i
  | .match i _ cases => numbersCases cases ++ numberOf i
  | .base i _ _ _ gs tr => numbersList gs ++ numbersOpt tr ++ numberOf i
  | .debug i _ _ gs => numbersList gs ++ numberOf i

/-- The same for a list. -/
def numbersList : List TGram → List Nat
  | [] => []
  | g :: gs => g.numbers ++ numbersList gs

/-- The same for a transformer. -/
def TTr.numbers : TTr → List Nat
  | .fn _ => []
  | .production precs check => numbersPrecs precs ++ check.numbers

/-- The same for a list of transformers. -/
def numbersTrs : List TTr → List Nat
  | [] => []
  | t :: ts => t.numbers ++ numbersTrs ts

/-- The same for the transformers of `BaseParser`. -/
def numbersOpt : Option (List TTr) → List Nat
  | none => []
  | some ts => numbersTrs ts

/-- The same for a case of `Match`. -/
def numbersCase : (List Ast → Bool) × List TTr → List Nat
  | (_, ts) => numbersTrs ts

/-- The same for the cases of `Match`. -/
def numbersCases : List ((List Ast → Bool) × List TTr) → List Nat
  | [] => []
  | c :: cs => numbersCase c ++ numbersCases cs

/-- The same for a precedence of `ProductionRule`. -/
def numbersPrec : List TGram × Bool → List Nat
  | (gs, _) => numbersList gs

/-- The same for the precedences of `ProductionRule`. -/
def numbersPrecs : List (List TGram × Bool) → List Nat
  | [] => []
  | p :: ps => numbersPrec p ++ numbersPrecs ps
end

namespace Spec

/-- Nothing in the grammar is wrapped. -/
def Untraced (g : TGram) : Prop := g.All fun g => g.info = none

/-- `DebugTrace` does not occur in the grammar. -/
def DebugFree (g : TGram) : Prop := g.All fun g => g.isDebug = false

/-- Every wrapped parser in the grammar satisfies `Q`. -/
def Wraps (Q : Trace.Info → Prop) (g : TGram) : Prop := g.All fun g => ∀ i, g.info = some i → Q i

/-- Every parser in the grammar that is made by `LightBaseParser` or `BaseParser` is wrapped, and reports to `pt` under the scope
`scope`, with its class name. -/
def TracedBy (pt : Nat) (scope : String) (g : TGram) : Prop :=
  g.All fun g => g.info.map (fun i => (i.pt, i.scope, i.cls)) = g.className.map fun cls => (pt, scope, cls)

end Spec
end Takenoco
