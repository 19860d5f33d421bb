import Verif.Spec.BigStep
import Verif.Spec.Grammar
import Verif.Spec.Text
/-
What the ASTs of a parse have to do with the piece of the source that was consumed: the text they spell, and their places.
-/
namespace Takenoco.Spec

/-- Grammars over parsers satisfying `P` and transformers satisfying `T`, without `Match`, `ProductionRule` and direct calls of
`BaseParser`. Recursion through `Indirect` is unrestricted. -/
inductive Over (P : Sem → Prop) (T : TSem → Prop) : Gram → Prop where
  | prim {p : Sem} : P p → Over P T (.prim p)
  | flatGroup {gs : List Gram} : (∀ g ∈ gs, Over P T g) → Over P T (.flatGroup gs)
  | group {gs : List Gram} : (∀ g ∈ gs, Over P T g) → Over P T (.group gs)
  | first {gs : List Gram} : (∀ g ∈ gs, Over P T g) → Over P T (.first gs)
  | lookAhead {gs : List Gram} : (∀ g ∈ gs, Plain g) → Over P T (.lookAhead gs)
  | lookAheadN {gs : List Gram} : (∀ g ∈ gs, Plain g) → Over P T (.lookAheadN gs)
  | lookBehind {a b : Int} {gs : List Gram} : (∀ g ∈ gs, Plain g) → Over P T (.lookBehind a b gs)
  | lookBehindN {a b : Int} {gs : List Gram} : (∀ g ∈ gs, Plain g) → Over P T (.lookBehindN a b gs)
  | repeat {t : Times} {gs : List Gram} : (∀ g ∈ gs, Over P T g) → Over P T (.repeat t gs)
  | trans {g : Gram} {fs : List TSem} : Over P T g → (∀ f ∈ fs, T f) → Over P T (.trans g (fs.map .fn))
  | indirect {i : Nat} : Over P T (.indirect i)

/-- `Piece s i v j`: the token `v` stands for the bytes of `s` from `i` to `j`: it consists of them, or it is U+FFFD in place of one byte
that starts no well-formed character. -/
inductive Piece (s : Bytes) (i : Nat) : Bytes → Nat → Prop where
  | bytes {v : Bytes} {rest : Bytes} : i ≤ s.length → s.drop i = v ++ rest → Piece s i v (i + v.length)
  | bad : i < s.length → (∀ ch rest, s.drop i ≠ utf8 ch ++ rest) → Piece s i (utf8 '�') (i + 1)

/-- The text `v` stands for the bytes of `s` from `i` to `j`, piece by piece. -/
inductive Written (s : Bytes) : Nat → Bytes → Nat → Prop where
  | nil {i : Nat} : Written s i [] i
  | cons {i j k : Nat} {v w : Bytes} : Piece s i v j → Written s j w k → Written s i (v ++ w) k

/-- `TextOf asts v`: the strings in the ASTs, in order and also those inside of groups, make up the text `v`. There is nothing else in
the ASTs. -/
inductive TextOf : List Ast → Bytes → Prop where
  | nil : TextOf [] []
  | token {a : Ast} {l : List Ast} {v w : Bytes} : a.val = .str v → TextOf l w → TextOf (a :: l) (v ++ w)
  | group {a : Ast} {m l : List Ast} {v w : Bytes} : a.val = .list m → TextOf m v → TextOf l w → TextOf (a :: l) (v ++ w)

/-- `Laid s i asts j`: the ASTs, also those inside of groups, are tokens that lie one after the other in `s`, from `i` to `j`, and each
carries the place where it begins. -/
inductive Laid (s : Bytes) : Nat → List Ast → Nat → Prop where
  | nil {i : Nat} : Laid s i [] i
  | token {a : Ast} {l : List Ast} {v : Bytes} {i j k : Nat} : a.val = .str v → a.pos = i → Piece s i v j → Laid s j l k → Laid s i (a :: l) k
  | group {a : Ast} {m l : List Ast} {i j k : Nat} : a.val = .list m → Laid s i m j → Laid s j l k → Laid s i (a :: l) k

/-- Parsers whose ASTs say what they consumed: the string terminals that push a token, those that consume and push nothing, `Zero` with
ASTs without text. -/
inductive TextParser : Sem → Prop where
  | token {p : Sem} : TokenParser p → TextParser p
  | error (msg : String) : TextParser (errorP msg)
  | unmatched : TextParser unmatchedP
  | start : TextParser startP
  | «end» : TextParser endS
  | wordBoundary : TextParser Takenoco.wordBoundary
  | unicodeWordBoundary (u : Extra.UnicodeTables) : TextParser (Extra.unicodeWordBoundary u)
  | zero (asts : List Ast) : TextOf asts [] → TextParser (zeroP asts)

/-- Transformers that keep the text: the library's, and any user-written one with that property. -/
inductive TextTrans : TSem → Prop where
  | concat : TextTrans Takenoco.concat
  | grouping : TextTrans groupingTransform
  | transformError (s : String) : TextTrans (Takenoco.transformError s)
  | setOpCode (n : UInt64) : TextTrans (Takenoco.setOpCode n)
  | changeClassName (s : String) : TextTrans (Takenoco.changeClassName s)
  | setOpCodeAndClassName (n : UInt64) (s : String) : TextTrans (Takenoco.setOpCodeAndClassName n s)
  | user (f : TSem) : (∀ c l l' v, TextOf l v → f c l = .ok (l', none) → TextOf l' v) → TextTrans f

/-- Likewise for places. `Zero` is left out: the ASTs it inserts are no tokens. -/
inductive PlaceParser : Sem → Prop where
  | token {p : Sem} : TokenParser p → PlaceParser p
  | error (msg : String) : PlaceParser (errorP msg)
  | unmatched : PlaceParser unmatchedP
  | start : PlaceParser startP
  | «end» : PlaceParser endS
  | wordBoundary : PlaceParser Takenoco.wordBoundary
  | unicodeWordBoundary (u : Extra.UnicodeTables) : PlaceParser (Extra.unicodeWordBoundary u)

/-- Transformers that keep the places: those of `TextTrans` except `Concat`. -/
inductive PlaceTrans : TSem → Prop where
  | grouping : PlaceTrans groupingTransform
  | transformError (s : String) : PlaceTrans (Takenoco.transformError s)
  | setOpCode (n : UInt64) : PlaceTrans (Takenoco.setOpCode n)
  | changeClassName (s : String) : PlaceTrans (Takenoco.changeClassName s)
  | setOpCodeAndClassName (n : UInt64) (s : String) : PlaceTrans (Takenoco.setOpCodeAndClassName n s)
  | user (f : TSem) : (∀ s c i l l' j, Laid s i l j → f c l = .ok (l', none) → Laid s i l' j) → PlaceTrans f

end Takenoco.Spec
