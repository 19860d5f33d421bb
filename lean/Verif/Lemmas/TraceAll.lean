import Verif.Model.Tracer
/-
Every grammar with a tracer around each of its parsers; for the cases of the theorems about numbers of calls.
-/
namespace Takenoco
open Trace

mutual
/-- The grammar with the same tracer around every parser. -/
def Gram.traced (i : Info) : Gram → TGram
  | .prim p => .prim (some i) none p
  | .flatGroup gs => .flatGroup (some i) (tracedList i gs)
  | .group gs => .group (some i) (tracedList i gs)
  | .first gs => .first (some i) (tracedList i gs)
  | .lookAhead gs => .lookAhead (some i) (tracedList i gs)
  | .lookAheadN gs => .lookAheadN (some i) (tracedList i gs)
  | .lookBehind minN maxN gs => .lookBehind (some i) minN maxN (tracedList i gs)
  | .lookBehindN minN maxN gs => .lookBehindN (some i) minN maxN (tracedList i gs)
  | .repeat t gs => .repeat (some i) t (tracedList i gs)
  | .trans g trs => .trans (some i) (g.traced i) (tracedTrs i trs)
  | .indirect name => .indirect (some i) name
  | .match n cases => .match (some i) n (tracedCases i cases)
  | .base cls fn props gs tr => .base (some i) cls fn props (tracedList i gs) (tracedOpt i tr)

/-- The same for a list. -/
def tracedList (i : Info) : List Gram → List TGram
  | [] => []
  | g :: gs => g.traced i :: tracedList i gs

/-- The same for a transformer. -/
def Tr.traced (i : Info) : Tr → TTr
  | .fn t => .fn t
  | .production precs check => .production (tracedPrecs i precs) (check.traced i)

/-- The same for a list of transformers. -/
def tracedTrs (i : Info) : List Tr → List TTr
  | [] => []
  | t :: ts => t.traced i :: tracedTrs i ts

/-- The same for the transformers of `BaseParser`. -/
def tracedOpt (i : Info) : Option (List Tr) → Option (List TTr)
  | none => none
  | some ts => some (tracedTrs i ts)

/-- The same for a case of `Match`. -/
def tracedCase (i : Info) : (List Ast → Bool) × List Tr → (List Ast → Bool) × List TTr
  | (guard, ts) => (guard, tracedTrs i ts)

/-- The same for the cases of `Match`. -/
def tracedCases (i : Info) : List ((List Ast → Bool) × List Tr) → List ((List Ast → Bool) × List TTr)
  | [] => []
  | c :: cs => tracedCase i c :: tracedCases i cs

/-- The same for a precedence of `ProductionRule`. -/
def tracedPrec (i : Info) : List Gram × Bool → List TGram × Bool
  | (gs, rtol) => (tracedList i gs, rtol)

/-- The same for the precedences of `ProductionRule`. -/
def tracedPrecs (i : Info) : List (List Gram × Bool) → List (List TGram × Bool)
  | [] => []
  | p :: ps => tracedPrec i p :: tracedPrecs i ps
end

mutual
theorem plain_traced (i : Info) : ∀ g : Gram, (g.traced i).plain = g
  | .prim p => rfl
  | .flatGroup gs => by simp [Gram.traced, TGram.plain, plain_tracedList i gs]
  | .group gs => by simp [Gram.traced, TGram.plain, plain_tracedList i gs]
  | .first gs => by simp [Gram.traced, TGram.plain, plain_tracedList i gs]
  | .lookAhead gs => by simp [Gram.traced, TGram.plain, plain_tracedList i gs]
  | .lookAheadN gs => by simp [Gram.traced, TGram.plain, plain_tracedList i gs]
  | .lookBehind minN maxN gs => by simp [Gram.traced, TGram.plain, plain_tracedList i gs]
  | .lookBehindN minN maxN gs => by simp [Gram.traced, TGram.plain, plain_tracedList i gs]
  | .repeat t gs => by simp [Gram.traced, TGram.plain, plain_tracedList i gs]
  | .trans g trs => by simp [Gram.traced, TGram.plain, plain_traced i g, plain_tracedTrs i trs]
  | .indirect name => by simp [Gram.traced, TGram.plain]
  | .match n cases => by simp [Gram.traced, TGram.plain, plain_tracedCases i cases]
  | .base cls fn props gs tr => by simp [Gram.traced, TGram.plain, plain_tracedList i gs, plain_tracedOpt i tr]

theorem plain_tracedList (i : Info) : ∀ gs : List Gram, plainList (tracedList i gs) = gs
  | [] => rfl
  | g :: gs => by simp [tracedList, plainList, plain_traced i g, plain_tracedList i gs]

theorem plain_tracedTr (i : Info) : ∀ t : Tr, (t.traced i).plain = t
  | .fn t => rfl
  | .production precs check => by simp [Tr.traced, TTr.plain, plain_tracedPrecs i precs, plain_traced i check]

theorem plain_tracedTrs (i : Info) : ∀ ts : List Tr, plainTrs (tracedTrs i ts) = ts
  | [] => rfl
  | t :: ts => by simp [tracedTrs, plainTrs, plain_tracedTr i t, plain_tracedTrs i ts]

theorem plain_tracedOpt (i : Info) : ∀ t : Option (List Tr), plainOpt (tracedOpt i t) = t
  | none => rfl
  | some ts => by simp [tracedOpt, plainOpt, plain_tracedTrs i ts]

theorem plain_tracedCase (i : Info) : ∀ c : (List Ast → Bool) × List Tr, plainCase (tracedCase i c) = c
  | (guard, ts) => by simp [tracedCase, plainCase, plain_tracedTrs i ts]

theorem plain_tracedCases (i : Info) : ∀ cs : List ((List Ast → Bool) × List Tr), plainCases (tracedCases i cs) = cs
  | [] => rfl
  | c :: cs => by simp [tracedCases, plainCases, plain_tracedCase i c, plain_tracedCases i cs]

theorem plain_tracedPrec (i : Info) : ∀ p : List Gram × Bool, plainPrec (tracedPrec i p) = p
  | (gs, rtol) => by simp [tracedPrec, plainPrec, plain_tracedList i gs]

theorem plain_tracedPrecs (i : Info) : ∀ ps : List (List Gram × Bool), plainPrecs (tracedPrecs i ps) = ps
  | [] => rfl
  | p :: ps => by simp [tracedPrecs, plainPrecs, plain_tracedPrec i p, plain_tracedPrecs i ps]
end

end Takenoco
