import Verif.Spec.Local
/-
Specification vocabulary for comparing two runs of a grammar, from two contexts that are related in some way.
-/
namespace Takenoco.Spec

/-- What a parser reads: the source and the place in it. -/
structure Cursor where
  str : Bytes
  slice : Option SliceSrc
  pos : Nat
  len : Nat

/-- What a parser reads from this context. -/
def cursorOf (c : Ctx) : Cursor := ⟨c.str, c.slice, c.pos, c.len⟩

/-- Lists of the same length whose elements are related one by one. -/
inductive Each {α β : Type} (R : α → β → Prop) : List α → List β → Prop where
  | nil : Each R [] []
  | cons {a : α} {b : β} {l : List α} {m : List β} : R a b → Each R l m → Each R (a :: l) (b :: m)

/-- Two contexts with sources and places related by `K`, the same status, and stacks of ASTs related by `R`, below which the
second has the ASTs `below` in addition. Class name, quantity and tag do not matter. -/
structure Linked (K : Cursor → Cursor → Prop) (R : Ast → Ast → Prop) (below : List Ast) (c c' : Ctx) : Prop where
  cursor : K (cursorOf c) (cursorOf c')
  status : c'.status = c.status
  stack : ∃ st, c'.stack = below ++ st ∧ Each R c.stack st

/-- The same error, or none, and related contexts. -/
def LinkedRes (K : Cursor → Cursor → Prop) (R : Ast → Ast → Prop) (below : List Ast) (r r' : PRes) : Prop :=
  r'.2 = r.2 ∧ Linked K R below r.1 r'.1

/-- A parser that cannot tell related contexts apart. -/
def Respects (K : Cursor → Cursor → Prop) (R : Ast → Ast → Prop) (below : List Ast) (p : Sem) : Prop :=
  ∀ c c', Linked K R below c c' → OutR (LinkedRes K R below) (p c) (p c')

/-- A callback of this kind. -/
def RespectsF (K : Cursor → Cursor → Prop) (R : Ast → Ast → Prop) (below : List Ast) (f : ImplFn) : Prop :=
  ∀ k b c c', Linked K R below c c' → OutR (LinkedRes K R below) (f k b c) (f k (below.length + b) c')

/-- A transformer of this kind. -/
def RespectsT (K : Cursor → Cursor → Prop) (R : Ast → Ast → Prop) (below : List Ast) (t : TSem) : Prop :=
  ∀ c c' asts asts', Linked K R below c c' → Each R asts asts' →
    OutR (fun r r' => r'.2 = r.2 ∧ (r.2 = none → Each R r.1 r'.1)) (t c asts) (t c' asts')

/-- Grammars over terminals satisfying `P`, transformers satisfying `T` and callbacks satisfying `F`, without look-behind and
`Match`, which look at what was before; `I` says whether `Indirect` is allowed. -/
inductive Steady (P : Sem → Prop) (T : Tr → Prop) (F : ImplFn → Prop) (I : Prop) : Gram → Prop where
  | prim {p : Sem} : P p → Steady P T F I (.prim p)
  | flatGroup {gs : List Gram} : (∀ g ∈ gs, Steady P T F I g) → Steady P T F I (.flatGroup gs)
  | group {gs : List Gram} : (∀ g ∈ gs, Steady P T F I g) → Steady P T F I (.group gs)
  | first {gs : List Gram} : (∀ g ∈ gs, Steady P T F I g) → Steady P T F I (.first gs)
  | lookAhead {gs : List Gram} : (∀ g ∈ gs, Steady P T F I g) → Steady P T F I (.lookAhead gs)
  | lookAheadN {gs : List Gram} : (∀ g ∈ gs, Steady P T F I g) → Steady P T F I (.lookAheadN gs)
  | repeat {t : Times} {gs : List Gram} : (∀ g ∈ gs, Steady P T F I g) → Steady P T F I (.repeat t gs)
  | trans {g : Gram} {trs : List Tr} : Steady P T F I g → (∀ t ∈ trs, T t) → Steady P T F I (.trans g trs)
  | indirect {i : Nat} : I → Steady P T F I (.indirect i)
  | base {cls : String} {fn : Option ImplFn} {props : List PropItem} {gs : List Gram} {tr : Option (List Tr)} :
      (∀ f, fn = some f → F f) → (∀ g ∈ gs, Steady P T F I g) → (∀ ts, tr = some ts → ∀ t ∈ ts, T t) →
      Steady P T F I (.base cls fn props gs tr)

/-- What the rules of `ProductionRule` read: the ASTs, related by `R`, at the same position. -/
def SameAsts (R : Ast → Ast → Prop) (k k' : Cursor) : Prop :=
  ∃ asts asts', Each R asts asts' ∧ k.slice = some (astSliceSrc asts) ∧ k'.slice = some (astSliceSrc asts') ∧ k'.str = k.str ∧ k'.pos = k.pos

/-- The same text with `pre` in front; the text satisfies `Q`. -/
def MovedBy (Q : Bytes → Prop) (pre : Bytes) (k k' : Cursor) : Prop := k'.str = pre ++ k.str ∧ k'.pos = pre.length + k.pos ∧ Q k.str

/-- The text is empty or starts with an ASCII character or the first byte of a longer one, as far as `WordBoundary` knows them. -/
def StartsClean (s : Bytes) : Prop := ∀ b s', s = b :: s' → b.toNat ≤ 0x7f ∨ (0xc2 ≤ b.toNat ∧ b.toNat ≤ 0xf0)

/-- The text is empty or ends with an ASCII character that is no word character. -/
def EndsClean (isWord : Nat → Bool) (pre : Bytes) : Prop := pre = [] ∨ ∃ t b, pre = t ++ [b] ∧ b.toNat < 0x80 ∧ isWord b.toNat = false

mutual
/-- The same AST but for the place in the source, also of the ASTs in its value. -/
inductive SameBut : Ast → Ast → Prop where
  | mk {a b : Ast} : b.opCode = a.opCode → b.cls = a.cls → b.ty = a.ty → SameVal a.val b.val → SameBut a b

/-- The same value but for the places of the ASTs in it. -/
inductive SameVal : Value → Value → Prop where
  | refl (v : Value) : SameVal v v
  | cons {a b c d : Ast} : SameBut a c → SameBut b d → SameVal (.cons a b) (.cons c d)
  | list {l m : List Ast} : SameButs l m → SameVal (.list l) (.list m)
  | ast {a b : Ast} : SameBut a b → SameVal (.ast a) (.ast b)

/-- One by one. -/
inductive SameButs : List Ast → List Ast → Prop where
  | nil : SameButs [] []
  | cons {a b : Ast} {l m : List Ast} : SameBut a b → SameButs l m → SameButs (a :: l) (b :: m)
end

/-- The terminals of package string that do not look at what is before the position. -/
inductive ForwardTerm : Sem → Prop where
  | error (msg : String) : ForwardTerm (errorP msg)
  | unmatched : ForwardTerm unmatchedP
  | zero (asts : List Ast) : ForwardTerm (zeroP asts)
  | any : ForwardTerm anyS
  | «end» : ForwardTerm endS
  | seq (s : Bytes) : ForwardTerm (seqS s)
  | seqI (orbit : Nat → Nat → Bool) (s : Bytes) : ForwardTerm (seqIS orbit s)
  | charRange (cr : List RuneRange) : ForwardTerm (Takenoco.charRange cr)
  | charRangeN (cr : List RuneRange) : ForwardTerm (Takenoco.charRangeN cr)
  | charClass (cc : List Bytes) : ForwardTerm (Takenoco.charClass cc)
  | charClassN (cc : List Bytes) : ForwardTerm (Takenoco.charClassN cc)
  | charClassFn (fn : Nat → Bool) : ForwardTerm (Takenoco.charClassFn fn)
  | whitespace : ForwardTerm Takenoco.whitespace
  | whitespaceNoLineBreak : ForwardTerm Takenoco.whitespaceNoLineBreak
  | lineBreak : ForwardTerm Takenoco.lineBreak
  | alpha : ForwardTerm Takenoco.alpha
  | number : ForwardTerm Takenoco.number
  | alnum : ForwardTerm Takenoco.alnum
  | binNumber : ForwardTerm Takenoco.binNumber
  | octNumber : ForwardTerm Takenoco.octNumber
  | hexNumber : ForwardTerm Takenoco.hexNumber

/-- The terminals that find the same in `s` alone and in `pre ++ s` behind `pre`: those that do not look back, and word boundaries if
the cut between the two texts is clean. -/
inductive PlaceTerm (pre s : Bytes) : Sem → Prop where
  | forward {p : Sem} : ForwardTerm p → PlaceTerm pre s p
  | wordBoundary : EndsClean isWord pre → StartsClean s → PlaceTerm pre s Takenoco.wordBoundary
  | unicodeWordBoundary (u : Extra.UnicodeTables) : EndsClean (Extra.isUnicodeWord u) pre → StartsClean s → PlaceTerm pre s (Extra.unicodeWordBoundary u)

/-- The terminals of package object that do not compare places in the source; the user's predicate must not look at them. -/
inductive BlindTerm : Sem → Prop where
  | error (msg : String) : BlindTerm (errorP msg)
  | unmatched : BlindTerm unmatchedP
  | zero (asts : List Ast) : BlindTerm (zeroP asts)
  | start : BlindTerm startP
  | any : BlindTerm objAny
  | «end» : BlindTerm objEnd
  | objClassFn (fn : Value → Out Bool) : (∀ a b, SameBut a b → fn (.ast b) = fn (.ast a)) → BlindTerm (Takenoco.objClassFn fn)

/-- A transformer that does not look at places in the source, at the context and at what is in the value of an AST beside its
type: what it returns for ASTs that are the same but for their places is the same but for the places. -/
def Blind (t : TSem) : Prop := ∀ c c' asts asts', Each SameBut asts asts' →
  OutR (fun r r' => r'.2 = r.2 ∧ (r.2 = none → Each SameBut r.1 r'.1)) (t c asts) (t c' asts')

mutual
/-- Transformers made of functions that satisfy `T`, and of production rules over such terminals and transformers. -/
inductive BlindTr (T : TSem → Prop) : Tr → Prop where
  | fn {t : TSem} : T t → BlindTr T (.fn t)
  | production {precs : List (List Gram × Bool)} {check : Gram} : (∀ p ∈ precs, ∀ g ∈ p.1, BlindGram T g) → BlindGram T check →
      BlindTr T (.production precs check)

/-- Grammars for the rules of `ProductionRule`, without look-behind, `Match` and callbacks. -/
inductive BlindGram (T : TSem → Prop) : Gram → Prop where
  | prim {p : Sem} : BlindTerm p → BlindGram T (.prim p)
  | flatGroup {gs : List Gram} : (∀ g ∈ gs, BlindGram T g) → BlindGram T (.flatGroup gs)
  | group {gs : List Gram} : (∀ g ∈ gs, BlindGram T g) → BlindGram T (.group gs)
  | first {gs : List Gram} : (∀ g ∈ gs, BlindGram T g) → BlindGram T (.first gs)
  | lookAhead {gs : List Gram} : (∀ g ∈ gs, BlindGram T g) → BlindGram T (.lookAhead gs)
  | lookAheadN {gs : List Gram} : (∀ g ∈ gs, BlindGram T g) → BlindGram T (.lookAheadN gs)
  | repeat {t : Times} {gs : List Gram} : (∀ g ∈ gs, BlindGram T g) → BlindGram T (.repeat t gs)
  | trans {g : Gram} {trs : List Tr} : BlindGram T g → (∀ t ∈ trs, BlindTr T t) → BlindGram T (.trans g trs)
end

end Takenoco.Spec
