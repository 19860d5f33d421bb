import Verif.Lemmas.CharConst
/-
C71: the exported lists of white space characters agree with the parsers for them.
-/
namespace Takenoco
open Spec

theorem C71_whitespace : SameUpToClass (charClass whitespaceCharacters) whitespace ":string:CharClass" ":string:Whitespace" :=
  same_of_terminals (charClass_chars ['\t', '\n', '\x0b', '\x0c', '\r', ' ', '\u0085', '\u00a0'] (by decide)) C18_whitespace

theorem C71_noLineBreak : SameUpToClass (charClass whitespaceNoLineBreakCharacters) whitespaceNoLineBreak ":string:CharClass"
    ":string:WhitespaceNoLineBreak" :=
  same_of_terminals (charClass_chars ['\t', ' ', '\u00a0'] (by decide)) C18_whitespaceNoLineBreak

theorem C71_lineBreak : SameUpToClass (charClass lineBreakCharacters) lineBreak ":string:CharClass" ":string:LineBreak" :=
  same_of_terminals (charClass_chars ['\n', '\x0b', '\x0c', '\r', '\u0085'] (by decide)) C18_lineBreak

/-- `CharClassN` of the list takes what the parser does not. -/
theorem C71_complements :
    Complementary whitespace (charClassN whitespaceCharacters) ":string:Whitespace" ":string:CharClassN" ∧
    Complementary whitespaceNoLineBreak (charClassN whitespaceNoLineBreakCharacters) ":string:WhitespaceNoLineBreak" ":string:CharClassN" ∧
    Complementary lineBreak (charClassN lineBreakCharacters) ":string:LineBreak" ":string:CharClassN" :=
  ⟨complementary_of_terminals C18_whitespace (charClassN_chars ['\t', '\n', '\x0b', '\x0c', '\r', ' ', '\u0085', '\u00a0'] (by decide)),
   complementary_of_terminals C18_whitespaceNoLineBreak (charClassN_chars ['\t', ' ', '\u00a0'] (by decide)),
   complementary_of_terminals C18_lineBreak (charClassN_chars ['\n', '\x0b', '\x0c', '\r', '\u0085'] (by decide))⟩

/-- The no-break space is two bytes; both take them. -/
example : charClass whitespaceNoLineBreakCharacters (newStrCtx (b! "\u00a0x")) =
      .ok (advance ":string:CharClass" (b! "\u00a0") 2 (newStrCtx (b! "\u00a0x")), none) ∧
    whitespaceNoLineBreak (newStrCtx (b! "\u00a0x")) = .ok (advance ":string:WhitespaceNoLineBreak" (b! "\u00a0") 2 (newStrCtx (b! "\u00a0x")), none) := by
  constructor <;> cbv
/-- The second byte of 'à' alone is no no-break space, for neither. -/
example : charClass whitespaceCharacters (newStrCtx [0xa0]) = .ok (refuse ":string:CharClass" (newStrCtx [0xa0]), none) ∧
    whitespace (newStrCtx [0xa0]) = .ok (refuse ":string:Whitespace" (newStrCtx [0xa0]), none) := by
  constructor <;> cbv

end Takenoco
