import Verif.Spec.Cover
import Verif.Model.StrTransformers
import Verif.Model.ObjParsers
/-
Well-formed UTF-8 and the parsers and transformers that keep to it.
-/
namespace Takenoco.Spec

/-- The bytes are the UTF-8 encoding of a text. -/
def WellFormed (s : Bytes) : Prop := ∃ t, s = utf8s t

/-- All strings inside of the value are well-formed. -/
inductive Clean : Value → Prop where
  | nil : Clean .nil
  | rune (r : Int32) : Clean (.rune r)
  | int (i : Int64) : Clean (.int i)
  | uint (u : UInt64) : Clean (.uint u)
  | float (b : UInt64) : Clean (.float b)
  | bool (b : Bool) : Clean (.bool b)
  | str {s : Bytes} : WellFormed s → Clean (.str s)
  | cons {a b : Ast} : Clean a.val → Clean b.val → Clean (.cons a b)
  | list {l : List Ast} : (∀ a ∈ l, Clean a.val) → Clean (.list l)
  | strs {l : List Bytes} : (∀ s ∈ l, WellFormed s) → Clean (.strs l)
  | strss {l : List (List Bytes)} : (∀ r ∈ l, ∀ s ∈ r, WellFormed s) → Clean (.strss l)
  | ast {a : Ast} : Clean a.val → Clean (.ast a)
  | slice {l : List Value} : (∀ v ∈ l, Clean v) → Clean (.slice l)
  | time (u : Int) (n : Nat) : Clean (.time u n)
  | func (i : Nat) : Clean (.func i)
  | opaque (i : Nat) : Clean (.opaque i)

/-- The terminals that push a token, with well-formed arguments. `SeqI` must not be given U+FFFD, and case folding does not touch it. -/
inductive CleanToken : Sem → Prop where
  | any : CleanToken anyS
  | seq {s : Bytes} : WellFormed s → CleanToken (seqS s)
  | seqI {orbit : Nat → Nat → Bool} {t : List Char} : '�' ∉ t → (∀ r, orbit r 0xfffd = false ∧ orbit 0xfffd r = false) →
      CleanToken (seqIS orbit (utf8s t))
  | charRange (cr : List RuneRange) : CleanToken (Takenoco.charRange cr)
  | charRangeN (cr : List RuneRange) : CleanToken (Takenoco.charRangeN cr)
  | charClass {cc : List Bytes} : (∀ s ∈ cc, WellFormed s) → CleanToken (Takenoco.charClass cc)
  | charClassN (cc : List Bytes) : CleanToken (Takenoco.charClassN cc)
  | charClassFn (fn : Nat → Bool) : CleanToken (Takenoco.charClassFn fn)
  | whitespace : CleanToken Takenoco.whitespace
  | whitespaceNoLineBreak : CleanToken Takenoco.whitespaceNoLineBreak
  | lineBreak : CleanToken Takenoco.lineBreak
  | alpha : CleanToken Takenoco.alpha
  | number : CleanToken Takenoco.number
  | alnum : CleanToken Takenoco.alnum
  | binNumber : CleanToken Takenoco.binNumber
  | octNumber : CleanToken Takenoco.octNumber
  | hexNumber : CleanToken Takenoco.hexNumber

/-- Parsers that push well-formed strings only. -/
inductive CleanParser : Sem → Prop where
  | token {p : Sem} : CleanToken p → CleanParser p
  | error (msg : String) : CleanParser (errorP msg)
  | unmatched : CleanParser unmatchedP
  | start : CleanParser startP
  | «end» : CleanParser endS
  | wordBoundary : CleanParser Takenoco.wordBoundary
  | unicodeWordBoundary (u : Extra.UnicodeTables) : CleanParser (Extra.unicodeWordBoundary u)
  | zero {asts : List Ast} : (∀ a ∈ asts, Clean a.val) → CleanParser (zeroP asts)

/-- Parsers that stay on the boundaries of characters and whose ASTs say what they consumed. -/
inductive ExactParser : Sem → Prop where
  | token {p : Sem} : CleanToken p → ExactParser p
  | error (msg : String) : ExactParser (errorP msg)
  | unmatched : ExactParser unmatchedP
  | start : ExactParser startP
  | «end» : ExactParser endS
  | wordBoundary : ExactParser Takenoco.wordBoundary
  | unicodeWordBoundary (u : Extra.UnicodeTables) : ExactParser (Extra.unicodeWordBoundary u)
  | zero {asts : List Ast} : TextOf asts [] → ExactParser (zeroP asts)

/-- Transformers that make well-formed strings of well-formed strings: all of the library (those with arguments, given well-formed ones),
and user-written ones with that property. -/
inductive CleanTrans : TSem → Prop where
  | erase : CleanTrans Takenoco.erase
  | transformError (s : String) : CleanTrans (Takenoco.transformError s)
  | grouping : CleanTrans groupingTransform
  | toSlice : CleanTrans Takenoco.toSlice
  | setOpCode (n : UInt64) : CleanTrans (Takenoco.setOpCode n)
  | changeClassName (s : String) : CleanTrans (Takenoco.changeClassName s)
  | setOpCodeAndClassName (n : UInt64) (s : String) : CleanTrans (Takenoco.setOpCodeAndClassName n s)
  | setValue (ty : AstType) {v : Value} : Clean v → CleanTrans (Takenoco.setValue ty v)
  | pop : CleanTrans Takenoco.pop
  | exchange : CleanTrans Takenoco.exchange
  | roll (n : Int) : CleanTrans (Takenoco.roll n)
  | concat : CleanTrans Takenoco.concat
  | trim : CleanTrans Takenoco.trim
  | trimStart : CleanTrans Takenoco.trimStart
  | trimEnd : CleanTrans Takenoco.trimEnd
  | parseIntRadix (base : Int) : CleanTrans (Takenoco.parseIntRadix base)
  | parseUintRadix (base : Int) : CleanTrans (Takenoco.parseUintRadix base)
  | parseFloat (pf : Bytes → NumRes UInt64) : CleanTrans (parseFloatT pf)
  | runeFromInt : CleanTrans Takenoco.runeFromInt
  | intFromRune : CleanTrans Takenoco.intFromRune
  | stringFromInt : CleanTrans Takenoco.stringFromInt
  | stringFromRune : CleanTrans Takenoco.stringFromRune
  | user {f : TSem} : (∀ c l l', (∀ a ∈ l, Clean a.val) → f c l = .ok (l', none) → ∀ a ∈ l', Clean a.val) → CleanTrans f

end Takenoco.Spec
