import Verif.Spec.Cost
/-
How deep calls of parsers are nested: how many `Before` calls a `ParserTracer` has seen whose parsers have not returned yet, when
everything is built under `DebugTrace`. Every such call is a frame (in fact several) of the Go stack.
-/
namespace Takenoco.Spec
open Trace

/-- The largest number of calls that are open at the same time, when `d` calls are open before the events. -/
def nesting : Nat → List Event → Nat
  | d, [] => d
  | d, .before _ _ :: l => nesting (d + 1) l
  | d, .after _ _ _ :: l => max d (nesting (d - 1) l)
  | d, .panic _ _ _ :: l => max d (nesting (d - 1) l)

/-- A traced grammar or a transformer. -/
inductive TItem where
  | gram (g : TGram)
  | tr (t : TTr)

/-- `Tall tenv k f`: as a tree, `f` has at most `k` levels of parsers, those that the functions given to `Indirect` return included. So
there is no recursion. -/
inductive Tall (tenv : TEnv) : Nat → TItem → Prop where
  | le {k k' : Nat} {f : TItem} : Tall tenv k f → k ≤ k' → Tall tenv k' f
  | prim {i : Option Info} {cls : Option String} {p : Sem} : Tall tenv 1 (.gram (.prim i cls p))
  | flatGroup {k : Nat} {i : Option Info} {gs : List TGram} : (∀ g, g ∈ gs → Tall tenv k (.gram g)) → Tall tenv (k + 1) (.gram (.flatGroup i gs))
  | group {k : Nat} {i : Option Info} {gs : List TGram} : (∀ g, g ∈ gs → Tall tenv k (.gram g)) → Tall tenv (k + 1) (.gram (.group i gs))
  | first {k : Nat} {i : Option Info} {gs : List TGram} : (∀ g, g ∈ gs → Tall tenv k (.gram g)) → Tall tenv (k + 1) (.gram (.first i gs))
  | lookAhead {k : Nat} {i : Option Info} {gs : List TGram} : (∀ g, g ∈ gs → Tall tenv k (.gram g)) → Tall tenv (k + 1) (.gram (.lookAhead i gs))
  | lookAheadN {k : Nat} {i : Option Info} {gs : List TGram} : (∀ g, g ∈ gs → Tall tenv k (.gram g)) → Tall tenv (k + 1) (.gram (.lookAheadN i gs))
  | lookBehind {k : Nat} {i : Option Info} {a b : Int} {gs : List TGram} : (∀ g, g ∈ gs → Tall tenv k (.gram g)) →
      Tall tenv (k + 1) (.gram (.lookBehind i a b gs))
  | lookBehindN {k : Nat} {i : Option Info} {a b : Int} {gs : List TGram} : (∀ g, g ∈ gs → Tall tenv k (.gram g)) →
      Tall tenv (k + 1) (.gram (.lookBehindN i a b gs))
  | repeat {k : Nat} {i : Option Info} {t : Times} {gs : List TGram} : (∀ g, g ∈ gs → Tall tenv k (.gram g)) →
      Tall tenv (k + 1) (.gram (.repeat i t gs))
  | trans {k : Nat} {i : Option Info} {g : TGram} {ts : List TTr} : Tall tenv k (.gram g) → (∀ t, t ∈ ts → Tall tenv k (.tr t)) →
      Tall tenv (k + 1) (.gram (.trans i g ts))
  | indirect {k : Nat} {i : Option Info} {name : Nat} : (∀ c, Tall tenv k (.gram (tenv name c))) → Tall tenv (k + 1) (.gram (.indirect i name))
  | match {k : Nat} {i : Option Info} {n : Int} {cases : List ((List Ast → Bool) × List TTr)} :
      (∀ x, x ∈ cases → ∀ t, t ∈ x.2 → Tall tenv k (.tr t)) → Tall tenv (k + 1) (.gram (.match i n cases))
  | base {k : Nat} {i : Option Info} {cls : String} {fn : Option ImplFn} {props : List PropItem} {gs : List TGram} {tr : Option (List TTr)} :
      (∀ g, g ∈ gs → Tall tenv k (.gram g)) → (∀ ts, tr = some ts → ∀ t, t ∈ ts → Tall tenv k (.tr t)) →
      Tall tenv (k + 1) (.gram (.base i cls fn props gs tr))
  | debug {k : Nat} {i : Option Info} {scope : String} {pt : Nat} {gs : List TGram} : (∀ g, g ∈ gs → Tall tenv k (.gram g)) →
      Tall tenv (k + 1) (.gram (.debug i scope pt gs))
  | fn {f : TSem} : Tall tenv 0 (.tr (.fn f))
  | production {k : Nat} {precs : List (List TGram × Bool)} {check : TGram} : (∀ p, p ∈ precs → ∀ g, g ∈ p.1 → Tall tenv k (.gram g)) →
      Tall tenv k (.gram check) → Tall tenv k (.tr (.production precs check))

/-- `Nests tenv S rank eater R h r e f`: `f` has at most `h` levels of parsers above the uses of `Indirect`; before input has been consumed
it uses only functions of a `rank` less than `r`, afterwards also others, of ranks less than `R`.
`e`: a match of `f` consumes input; `eater` says this of the functions given to `Indirect`. -/
inductive Nests (tenv : TEnv) (S : Sources) (rank : Nat → Nat) (eater : Nat → Bool) (R : Nat) : Nat → Nat → Bool → TForm → Prop where
  | le {h h' r : Nat} {e : Bool} {f : TForm} : Nests tenv S rank eater R h r e f → h ≤ h' → Nests tenv S rank eater R h' r e f
  | forget {h r : Nat} {f : TForm} : Nests tenv S rank eater R h r true f → Nests tenv S rank eater R h r false f
  | prim {r : Nat} {e : Bool} {i : Option Info} {cls : Option String} {p : Sem} : Moves S e.toNat p →
      Nests tenv S rank eater R 1 r e (.gram (.prim i cls p))
  | nil {h r : Nat} : Nests tenv S rank eater R h r false (.seq [])
  | keep {h r : Nat} {e : Bool} {g : TGram} {gs : List TGram} : Nests tenv S rank eater R h r false (.gram g) →
      Nests tenv S rank eater R h r e (.seq gs) → Nests tenv S rank eater R h r e (.seq (g :: gs))
  | eat {h r r' : Nat} {e : Bool} {g : TGram} {gs : List TGram} : Nests tenv S rank eater R h r true (.gram g) → r' ≤ R →
      Nests tenv S rank eater R h r' e (.seq gs) → Nests tenv S rank eater R h r true (.seq (g :: gs))
  | none {h r : Nat} : Nests tenv S rank eater R h r true (.alts [])
  | alt {h r : Nat} {e e' : Bool} {g : TGram} {gs : List TGram} : Nests tenv S rank eater R h r e (.gram g) →
      Nests tenv S rank eater R h r e' (.alts gs) → Nests tenv S rank eater R h r (e && e') (.alts (g :: gs))
  | flatGroup {h r : Nat} {e : Bool} {i : Option Info} {gs : List TGram} : Nests tenv S rank eater R h r e (.seq gs) →
      Nests tenv S rank eater R (h + 1) r e (.gram (.flatGroup i gs))
  | group {h r : Nat} {e : Bool} {i : Option Info} {gs : List TGram} : Nests tenv S rank eater R h r e (.seq gs) →
      Nests tenv S rank eater R (h + 1) r e (.gram (.group i gs))
  | first {h r : Nat} {e : Bool} {i : Option Info} {gs : List TGram} : gs ≠ [] → Nests tenv S rank eater R h r e (.alts gs) →
      Nests tenv S rank eater R (h + 1) r e (.gram (.first i gs))
  | lookAhead {h r : Nat} {e : Bool} {i : Option Info} {gs : List TGram} : Nests tenv S rank eater R h r e (.seq gs) →
      Nests tenv S rank eater R (h + 1) r false (.gram (.lookAhead i gs))
  | lookAheadN {h r : Nat} {e : Bool} {i : Option Info} {gs : List TGram} : Nests tenv S rank eater R h r e (.seq gs) →
      Nests tenv S rank eater R (h + 1) r false (.gram (.lookAheadN i gs))
  | lookBehind {h r : Nat} {i : Option Info} {a b : Int} {gs : List TGram} : (∀ g, g ∈ gs → Tall tenv h (.gram g)) →
      Nests tenv S rank eater R (h + 1) r false (.gram (.lookBehind i a b gs))
  | lookBehindN {h r : Nat} {i : Option Info} {a b : Int} {gs : List TGram} : (∀ g, g ∈ gs → Tall tenv h (.gram g)) →
      Nests tenv S rank eater R (h + 1) r false (.gram (.lookBehindN i a b gs))
  | repeat {h r : Nat} {e e' : Bool} {i : Option Info} {t : Times} {gs : List TGram} : Nests tenv S rank eater R h r e (.seq gs) →
      (e' = true → e = true ∧ 1 ≤ t.min) → Nests tenv S rank eater R (h + 1) r e' (.gram (.repeat i t gs))
  | trans {h r : Nat} {e : Bool} {i : Option Info} {g : TGram} {ts : List TTr} : Nests tenv S rank eater R h r e (.gram g) →
      (∀ t, t ∈ ts → Tall tenv h (.tr t)) → Nests tenv S rank eater R (h + 1) r e (.gram (.trans i g ts))
  | match {h r : Nat} {i : Option Info} {n : Int} {cases : List ((List Ast → Bool) × List TTr)} :
      (∀ x, x ∈ cases → ∀ t, t ∈ x.2 → Tall tenv h (.tr t)) → Nests tenv S rank eater R (h + 1) r false (.gram (.match i n cases))
  | indirect {r : Nat} {i : Option Info} {name : Nat} : rank name < r → Nests tenv S rank eater R 0 r (eater name) (.gram (.indirect i name))
  | debug {h r : Nat} {e : Bool} {i : Option Info} {scope : String} {pt : Nat} {gs : List TGram} : Nests tenv S rank eater R h r e (.seq gs) →
      Nests tenv S rank eater R (h + 1) r e (.gram (.debug i scope pt gs))

/-- The functions given to `Indirect` return grammars with at most `H` levels; those of rank `r` come back to functions of rank `r` or
greater only after they have consumed input. -/
def NestsEnv (tenv : TEnv) (S : Sources) (rank : Nat → Nat) (eater : Nat → Bool) (R H : Nat) : Prop :=
  ∀ name k, rank name < R ∧ Nests tenv S rank eater R H (rank name) (eater name) (.gram (tenv name k))

end Takenoco.Spec

namespace Takenoco
open Trace

/-- `bracketed = First(FlatGroup("(", bracketed, ")"), "x")`, every parser traced by `i`. -/
def bracketed (i : Info) : TGram :=
  .first (some i) [
    .flatGroup (some i) [.prim (some i) none (seqS (b! "(")), .indirect (some i) 0, .prim (some i) none (seqS (b! ")"))],
    .prim (some i) none (seqS (b! "x"))]

/-- `n` opening brackets, then `x`, then `n` closing brackets. -/
def bracketText (n : Nat) : Bytes := List.replicate n 0x28 ++ 0x78 :: List.replicate n 0x29

end Takenoco
