import Verif.Spec.Text
import Verif.Model.Extra
/-
Unicode identifiers.
-/
namespace Takenoco.Spec

/-- `CharRun S s w t rest`: at the start of `s` stands the text `t` of characters in `S`, which takes the bytes `w`,
followed by `rest`, which starts with no character in `S`. -/
inductive CharRun (S : Char → Prop) : Bytes → Bytes → List Char → Bytes → Prop where
  | stop {s : Bytes} : (∀ ch n, NextChar s ch n → ¬ S ch) → CharRun S s [] [] s
  | next {s w rest : Bytes} {t : List Char} {ch : Char} {n : Nat} : NextChar s ch n → S ch → CharRun S (s.drop n) w t rest →
      CharRun S s (s.take n ++ w) (ch :: t) rest

/-- The tables reserve a character for the syntax of patterns. -/
def Reserved (tab : Extra.UnicodeTables) (ch : Char) : Prop :=
  tab.Pattern_Syntax ch.toNat = true ∨ tab.Pattern_White_Space ch.toNat = true

/-- The characters that start an identifier by UAX #31: letters and letter numbers, and some others by name. -/
def StartsId (tab : Extra.UnicodeTables) (ch : Char) : Prop :=
  (tab.L ch.toNat = true ∨ tab.Nl ch.toNat = true ∨ tab.Other_ID_Start ch.toNat = true) ∧ ¬ Reserved tab ch

/-- The characters that continue an identifier by UAX #31: those, marks, digits and connectors, some others by name, and
the two joiners. -/
def ContinuesId (tab : Extra.UnicodeTables) (ch : Char) : Prop :=
  ((tab.L ch.toNat = true ∨ tab.Nl ch.toNat = true ∨ tab.Other_ID_Start ch.toNat = true) ∨
    tab.Mn ch.toNat = true ∨ tab.Mc ch.toNat = true ∨ tab.Nd ch.toNat = true ∨ tab.Pc ch.toNat = true ∨
    tab.Other_ID_Continue ch.toNat = true ∨ ch = '\u200c' ∨ ch = '\u200d') ∧ ¬ Reserved tab ch

/-- The first character of an identifier of `UnicodeIdentifierStr`. -/
def IdFirst (tab : Extra.UnicodeTables) (ch : Char) : Prop := ch = '_' ∨ ch = '$' ∨ StartsId tab ch

/-- The others. -/
def IdRest (tab : Extra.UnicodeTables) (ch : Char) : Prop := ch = '$' ∨ ContinuesId tab ch

/-- What the Unicode standard says about two characters: `_` is a connector and not reserved, `$` is reserved. -/
structure Standard (tab : Extra.UnicodeTables) : Prop where
  underscore : tab.Pc '_'.toNat = true ∧ ¬ Reserved tab '_'
  dollar : tab.Pattern_Syntax '$'.toNat = true

end Takenoco.Spec
