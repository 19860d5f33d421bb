import Verif.Spec.BigStep
import Verif.Spec.Grammar
/-
Grammars that terminate on every source: every unbounded repetition consumes input in each iteration, and no function
given to `Indirect` comes back to itself before some input is consumed.
-/
namespace Takenoco.Spec

/-- A kind of sources: how long they are and what is known of them. Both depend on the source only. -/
structure Sources where
  size : Ctx → Nat
  fine : Ctx → Prop
  size_eq : ∀ c d : Ctx, c.str = d.str → c.slice = d.slice → size c = size d
  fine_eq : ∀ c d : Ctx, c.str = d.str → c.slice = d.slice → fine c → fine d

/-- All strings. -/
def strings : Sources := ⟨fun c => c.str.length, fun _ => True, fun _ _ h _ => by rw [h], fun _ _ _ _ h => h⟩

/-- The slices whose `ItemEquals` returns or panics. -/
def objects : Sources where
  size c := match c.slice with
    | some src => src.items.length
    | none => 0
  fine c := ∀ src, c.slice = some src → ∀ v w, src.itemEquals v w ≠ .timeout
  size_eq _ _ _ h := by simp only [h]
  fine_eq _ _ _ h hf src hs := hf src (h.trans hs)

/-- The position is in the source. -/
def Inside (S : Sources) (c : Ctx) : Prop := c.status = .matched ∧ S.fine c ∧ c.pos ≤ S.size c

/-- A match of the parser moves the position forward, by at least `k`, in the same source. -/
def Moves (S : Sources) (k : Nat) (p : Sem) : Prop :=
  ∀ c o, Inside S c → p c = .ok (o, none) → o.status = .matched →
    c.pos + k ≤ o.pos ∧ o.pos ≤ S.size c ∧ o.str = c.str ∧ o.slice = c.slice

/-- The parser returns or panics. -/
def Halts (S : Sources) (p : Sem) : Prop := ∀ c, Inside S c → p c ≠ .timeout

/-- A grammar, or a sequence of grammars. -/
inductive Form where
  | gram (g : Gram)
  | seq (gs : List Gram)

/-- `Stops env S rank eater ind r e f`: the form `f` terminates, if the functions given to `Indirect` do.
`ind`: `f` may use `Indirect`; before input has been consumed, only for functions with `rank` less than `r`.
`e`: a match of `f` consumes input; `eater` says this of the functions given to `Indirect`. -/
inductive Stops (env : Env) (S : Sources) (rank : Nat → Nat) (eater : Nat → Bool) : Bool → Nat → Bool → Form → Prop where
  | prim {ind : Bool} {r : Nat} {e : Bool} {p : Sem} : Halts S p → Moves S e.toNat p → Stops env S rank eater ind r e (.gram (.prim p))
  | forget {ind : Bool} {r : Nat} {f : Form} : Stops env S rank eater ind r true f → Stops env S rank eater ind r false f
  | nil {ind : Bool} {r : Nat} : Stops env S rank eater ind r false (.seq [])
  | keep {ind : Bool} {r : Nat} {e : Bool} {g : Gram} {gs : List Gram} : Stops env S rank eater ind r false (.gram g) →
      Stops env S rank eater ind r e (.seq gs) → Stops env S rank eater ind r e (.seq (g :: gs))
  | eat {ind : Bool} {r r' : Nat} {e : Bool} {g : Gram} {gs : List Gram} : Stops env S rank eater ind r true (.gram g) →
      Stops env S rank eater ind r' e (.seq gs) → Stops env S rank eater ind r true (.seq (g :: gs))
  | flatGroup {ind : Bool} {r : Nat} {e : Bool} {gs : List Gram} : Stops env S rank eater ind r e (.seq gs) →
      Stops env S rank eater ind r e (.gram (.flatGroup gs))
  | group {ind : Bool} {r : Nat} {e : Bool} {gs : List Gram} : Stops env S rank eater ind r e (.seq gs) →
      Stops env S rank eater ind r e (.gram (.group gs))
  | first {ind : Bool} {r : Nat} {e : Bool} {gs : List Gram} : (gs = [] → e = false) → (∀ g, g ∈ gs → Stops env S rank eater ind r e (.gram g)) →
      Stops env S rank eater ind r e (.gram (.first gs))
  | lookAhead {ind : Bool} {r : Nat} {e : Bool} {gs : List Gram} : Stops env S rank eater ind r e (.seq gs) →
      Stops env S rank eater ind r false (.gram (.lookAhead gs))
  | lookAheadN {ind : Bool} {r : Nat} {e : Bool} {gs : List Gram} : Stops env S rank eater ind r e (.seq gs) →
      Stops env S rank eater ind r false (.gram (.lookAheadN gs))
  | lookBehind {ind : Bool} {r r' : Nat} {e : Bool} {a b : Int} {gs : List Gram} : 0 ≤ a → Stops env S rank eater false r' e (.seq gs) →
      Stops env S rank eater ind r false (.gram (.lookBehind a b gs))
  | lookBehindN {ind : Bool} {r r' : Nat} {e : Bool} {a b : Int} {gs : List Gram} : 0 ≤ a → Stops env S rank eater false r' e (.seq gs) →
      Stops env S rank eater ind r false (.gram (.lookBehindN a b gs))
  | repeat {ind : Bool} {r : Nat} {e e' : Bool} {t : Times} {gs : List Gram} : Stops env S rank eater ind r e (.seq gs) →
      (e = true ∨ 0 ≤ t.max) → (e' = true → e = true ∧ 1 ≤ t.min) → Stops env S rank eater ind r e' (.gram (.repeat t gs))
  | trans {ind : Bool} {r : Nat} {e : Bool} {g : Gram} {ts : List Tr} : Stops env S rank eater ind r e (.gram g) →
      (∀ t, t ∈ ts → ∀ c l, ∃ n, runTr env n t c l ≠ .timeout) → Stops env S rank eater ind r e (.gram (.trans g ts))
  | match {ind : Bool} {r : Nat} {n : Int} {cases : List ((List Ast → Bool) × List Tr)} :
      (∀ x, x ∈ cases → ∀ t, t ∈ x.2 → ∀ c l, ∃ n, runTr env n t c l ≠ .timeout) → Stops env S rank eater ind r false (.gram (.match n cases))
  | indirect {r i : Nat} : rank i < r → Stops env S rank eater true r (eater i) (.gram (.indirect i))

/-- The functions given to `Indirect` terminate if those of lower rank do. -/
def StopsEnv (env : Env) (S : Sources) (rank : Nat → Nat) (eater : Nat → Bool) : Prop :=
  ∀ i, Stops env S rank eater true (rank i) (eater i) (.gram (env i))

/-- The terminals of package string that consume input when they match. -/
inductive EatsStr : Sem → Prop where
  | any : EatsStr anyS
  | seq (s : Bytes) : s ≠ [] → EatsStr (seqS s)
  | seqI (orbit : Nat → Nat → Bool) (s : Bytes) : s ≠ [] → EatsStr (seqIS orbit s)
  | charRange (cr : List RuneRange) : EatsStr (Takenoco.charRange cr)
  | charRangeN (cr : List RuneRange) : EatsStr (Takenoco.charRangeN cr)
  | charClass (cc : List Bytes) : [] ∉ cc → EatsStr (Takenoco.charClass cc)
  | charClassN (cc : List Bytes) : EatsStr (Takenoco.charClassN cc)
  | charClassFn (fn : Nat → Bool) : EatsStr (Takenoco.charClassFn fn)
  | whitespace : EatsStr Takenoco.whitespace
  | whitespaceNoLineBreak : EatsStr Takenoco.whitespaceNoLineBreak
  | lineBreak : EatsStr Takenoco.lineBreak
  | alpha : EatsStr Takenoco.alpha
  | number : EatsStr Takenoco.number
  | alnum : EatsStr Takenoco.alnum
  | binNumber : EatsStr Takenoco.binNumber
  | octNumber : EatsStr Takenoco.octNumber
  | hexNumber : EatsStr Takenoco.hexNumber

/-- The terminals of package object that consume input when they match. -/
inductive EatsObj : Sem → Prop where
  | any : EatsObj objAny
  | seq (vs : List Value) : vs ≠ [] → EatsObj (objSeq vs)
  | objClass (vs : List Value) : EatsObj (Takenoco.objClass vs)
  | objClassN (vs : List Value) : EatsObj (Takenoco.objClassN vs)
  | objClassFn (fn : Value → Out Bool) : (∀ v, fn v ≠ .timeout) → EatsObj (Takenoco.objClassFn fn)

end Takenoco.Spec
