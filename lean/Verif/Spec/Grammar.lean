import Verif.Model.Gram
import Verif.Model.Extra
/-
Which parsers are "built from the library": the terminals and the grammars over them.
-/
namespace Takenoco.Spec

/-- The terminals of package base that do not look at the source kind. The ASTs given to `Zero` satisfy
`A` (whatever their source position, which `Zero` overwrites). -/
inductive BaseTerm (A : Ast → Prop) : Sem → Prop where
  | error (msg : String) : BaseTerm A (errorP msg)
  | unmatched : BaseTerm A unmatchedP
  | zero (asts : List Ast) : (∀ a ∈ asts, ∀ p l, A { a with pos := p, len := l }) → BaseTerm A (zeroP asts)
  | start : BaseTerm A startP

/-- The terminals of package string (and `UnicodeWordBoundary` of package extra). -/
inductive StrTerm (A : Ast → Prop) : Sem → Prop where
  | base {p : Sem} : BaseTerm A p → StrTerm A p
  | any : StrTerm A anyS
  | «end» : StrTerm A endS
  | seq (s : Bytes) : StrTerm A (seqS s)
  | seqI (orbit : Nat → Nat → Bool) (s : Bytes) : StrTerm A (seqIS orbit s)
  | charRange (cr : List RuneRange) : StrTerm A (Takenoco.charRange cr)
  | charRangeN (cr : List RuneRange) : StrTerm A (Takenoco.charRangeN cr)
  | charClass (cc : List Bytes) : StrTerm A (Takenoco.charClass cc)
  | charClassN (cc : List Bytes) : StrTerm A (Takenoco.charClassN cc)
  | charClassFn (fn : Nat → Bool) : StrTerm A (Takenoco.charClassFn fn)
  | whitespace : StrTerm A Takenoco.whitespace
  | whitespaceNoLineBreak : StrTerm A Takenoco.whitespaceNoLineBreak
  | lineBreak : StrTerm A Takenoco.lineBreak
  | alpha : StrTerm A Takenoco.alpha
  | number : StrTerm A Takenoco.number
  | alnum : StrTerm A Takenoco.alnum
  | binNumber : StrTerm A Takenoco.binNumber
  | octNumber : StrTerm A Takenoco.octNumber
  | hexNumber : StrTerm A Takenoco.hexNumber
  | wordBoundary : StrTerm A Takenoco.wordBoundary
  | unicodeWordBoundary (u : Extra.UnicodeTables) : StrTerm A (Extra.unicodeWordBoundary u)

/-- The string terminals that push a token. -/
inductive TokenParser : Sem → Prop where
  | any : TokenParser anyS
  | seq (s : Bytes) : TokenParser (seqS s)
  | seqI (orbit : Nat → Nat → Bool) (s : Bytes) : TokenParser (seqIS orbit s)
  | charRange (cr : List RuneRange) : TokenParser (Takenoco.charRange cr)
  | charRangeN (cr : List RuneRange) : TokenParser (Takenoco.charRangeN cr)
  | charClass (cc : List Bytes) : TokenParser (Takenoco.charClass cc)
  | charClassN (cc : List Bytes) : TokenParser (Takenoco.charClassN cc)
  | charClassFn (fn : Nat → Bool) : TokenParser (Takenoco.charClassFn fn)
  | whitespace : TokenParser Takenoco.whitespace
  | whitespaceNoLineBreak : TokenParser Takenoco.whitespaceNoLineBreak
  | lineBreak : TokenParser Takenoco.lineBreak
  | alpha : TokenParser Takenoco.alpha
  | number : TokenParser Takenoco.number
  | alnum : TokenParser Takenoco.alnum
  | binNumber : TokenParser Takenoco.binNumber
  | octNumber : TokenParser Takenoco.octNumber
  | hexNumber : TokenParser Takenoco.hexNumber

/-- The terminals of package object. -/
inductive ObjTerm (A : Ast → Prop) : Sem → Prop where
  | base {p : Sem} : BaseTerm A p → ObjTerm A p
  | any : ObjTerm A objAny
  | «end» : ObjTerm A objEnd
  | seq (vs : List Value) : ObjTerm A (objSeq vs)
  | objClass (vs : List Value) : ObjTerm A (Takenoco.objClass vs)
  | objClassN (vs : List Value) : ObjTerm A (Takenoco.objClassN vs)
  | objClassFn (fn : Value → Out Bool) : ObjTerm A (Takenoco.objClassFn fn)

/-- A terminal of the library, for a string or for a slice source. -/
def LibTerm (p : Sem) : Prop := StrTerm (fun _ => True) p ∨ ObjTerm (fun _ => True) p

/-- An AST tagged as a string holds a string. -/
def StrTyped (a : Ast) : Prop := a.ty = .string → ∃ s, a.val = .str s

/-- Transformers that do not panic on ASTs tagged correctly, and return such ASTs: the library's (without
`Exchange`, `ParseUint`, `ToSlice` and the rune/integer conversions, which do panic on some inputs), and
any user-written one with that property. -/
inductive SafeTr : Tr → Prop where
  | erase : SafeTr (.fn erase)
  | transformError (s : String) : SafeTr (.fn (transformError s))
  | grouping : SafeTr (.fn groupingTransform)
  | setOpCode (n : UInt64) : SafeTr (.fn (setOpCode n))
  | changeClassName (s : String) : SafeTr (.fn (changeClassName s))
  | setOpCodeAndClassName (n : UInt64) (s : String) : SafeTr (.fn (setOpCodeAndClassName n s))
  | setValue (ty : AstType) (v : Value) : (ty = .string → ∃ s, v = .str s) → SafeTr (.fn (setValue ty v))
  | pop : SafeTr (.fn pop)
  | roll (n : Int) : SafeTr (.fn (roll n))
  | concat : SafeTr (.fn concat)
  | trim : SafeTr (.fn trim)
  | trimStart : SafeTr (.fn trimStart)
  | trimEnd : SafeTr (.fn trimEnd)
  | parseIntRadix (base : Int) : SafeTr (.fn (parseIntRadix base))
  | parseFloat (pf : Bytes → NumRes UInt64) : SafeTr (.fn (parseFloatT pf))
  | user (t : TSem) : (∀ c asts, (∀ a ∈ asts, StrTyped a) →
      (∀ x, t c asts ≠ .panic x) ∧ ∀ l, t c asts = .ok (l, none) → ∀ a ∈ l, StrTyped a) → SafeTr (.fn t)

/-- Grammars over terminals satisfying `P`, transformers satisfying `T`, `BaseParser` callbacks
satisfying `F` and look-behind start distances satisfying `D`; `M` says whether `Match` is allowed.
Recursion through `Indirect` is unrestricted (the environment has to consist of such grammars, too). -/
inductive Built (P : Sem → Prop) (T : Tr → Prop) (F : ImplFn → Prop) (D : Int → Prop) (M : Prop) :
    Gram → Prop where
  | prim {p : Sem} : P p → Built P T F D M (.prim p)
  | flatGroup {gs : List Gram} : (∀ g ∈ gs, Built P T F D M g) → Built P T F D M (.flatGroup gs)
  | group {gs : List Gram} : (∀ g ∈ gs, Built P T F D M g) → Built P T F D M (.group gs)
  | first {gs : List Gram} : (∀ g ∈ gs, Built P T F D M g) → Built P T F D M (.first gs)
  | lookAhead {gs : List Gram} : (∀ g ∈ gs, Built P T F D M g) → Built P T F D M (.lookAhead gs)
  | lookAheadN {gs : List Gram} : (∀ g ∈ gs, Built P T F D M g) → Built P T F D M (.lookAheadN gs)
  | lookBehind {a b : Int} {gs : List Gram} : D a → (∀ g ∈ gs, Built P T F D M g) →
      Built P T F D M (.lookBehind a b gs)
  | lookBehindN {a b : Int} {gs : List Gram} : D a → (∀ g ∈ gs, Built P T F D M g) →
      Built P T F D M (.lookBehindN a b gs)
  | repeat {t : Times} {gs : List Gram} : (∀ g ∈ gs, Built P T F D M g) → Built P T F D M (.repeat t gs)
  | trans {g : Gram} {trs : List Tr} : Built P T F D M g → (∀ t ∈ trs, T t) → Built P T F D M (.trans g trs)
  | indirect {i : Nat} : Built P T F D M (.indirect i)
  | match {n : Int} {cases : List ((List Ast → Bool) × List Tr)} : M → (∀ c ∈ cases, ∀ t ∈ c.2, T t) →
      Built P T F D M (.match n cases)
  | base {cls : String} {fn : Option ImplFn} {props : List PropItem} {gs : List Gram}
      {tr : Option (List Tr)} : (∀ f, fn = some f → F f) → (∀ g ∈ gs, Built P T F D M g) →
      (∀ ts, tr = some ts → ∀ t ∈ ts, T t) → Built P T F D M (.base cls fn props gs tr)

theorem Built.mono_F {P : Sem → Prop} {T : Tr → Prop} {F F' : ImplFn → Prop} {D : Int → Prop} {M : Prop} {g : Gram}
    (h : Built P T F D M g) (hF : ∀ f, F f → F' f) : Built P T F' D M g := by
  induction h with
  | prim h => exact .prim h
  | flatGroup _ ih => exact .flatGroup ih
  | group _ ih => exact .group ih
  | first _ ih => exact .first ih
  | lookAhead _ ih => exact .lookAhead ih
  | lookAheadN _ ih => exact .lookAheadN ih
  | lookBehind h _ ih => exact .lookBehind h ih
  | lookBehindN h _ ih => exact .lookBehindN h ih
  | «repeat» _ ih => exact .repeat ih
  | trans _ h ih => exact .trans ih h
  | indirect => exact .indirect
  | «match» h h' => exact .match h h'
  | base h1 _ h3 ih => exact .base (fun f hf => hF f (h1 f hf)) ih h3

end Takenoco.Spec
