import Verif.Spec.Transform
/-
What a csv text is and which table it stands for, in terms of characters.
-/
namespace Takenoco.Spec

/-- A blank inside a line: HT, SP, NBSP. -/
def LineBlank (ch : Char) : Prop := ch ∈ ['\t', ' ', '\u00a0']
/-- A line break: LF, VT, FF, CR, NEL. -/
def LineEnd (ch : Char) : Prop := ch ∈ ['\n', '\x0b', '\x0c', '\r', '\u0085']
/-- A character that ends an unquoted cell. -/
def CellEnd (ch : Char) : Prop := ch = ',' ∨ LineEnd ch

/-- The text without the white space around it. -/
def TrimmedText (t v : List Char) : Prop :=
  (∃ a b, (∀ ch ∈ a, Blank ch) ∧ (∀ ch ∈ b, Blank ch) ∧ t = a ++ v ++ b) ∧
    (∀ ch, v.head? = some ch → ¬ Blank ch) ∧ (∀ ch, v.getLast? = some ch → ¬ Blank ch)

/-- The inside of a quoted part and what it stands for. A doubled quote stands for nothing. -/
inductive QuotedBody : List Char → List Char → Prop where
  | nil : QuotedBody [] []
  | char {ch : Char} {t v : List Char} : ch ≠ '"' → QuotedBody t v → QuotedBody (ch :: t) (ch :: v)
  | pair {t v : List Char} : QuotedBody t v → QuotedBody ('"' :: '"' :: t) v

/-- A quoted cell: one or more quoted parts, with blanks between and around them. -/
inductive QuotedCell : List Char → List Char → Prop where
  | last {a t v b : List Char} : (∀ ch ∈ a, LineBlank ch) → QuotedBody t v → (∀ ch ∈ b, LineBlank ch) →
      QuotedCell (a ++ '"' :: t ++ '"' :: b) v
  | more {a t v b u w : List Char} : (∀ ch ∈ a, LineBlank ch) → QuotedBody t v → (∀ ch ∈ b, LineBlank ch) → b ≠ [] →
      QuotedCell ('"' :: u) w → QuotedCell (a ++ '"' :: t ++ '"' :: (b ++ '"' :: u)) (v ++ w)

/-- The text of a cell and its value: an unquoted cell stands for its text without the white space around it. -/
inductive CellText : List Char → List Char → Prop where
  | plain {t v : List Char} : (∀ ch ∈ t, ¬ CellEnd ch) → (∀ a u, (∀ ch ∈ a, LineBlank ch) → t ≠ a ++ '"' :: u) →
      TrimmedText t v → CellText t v
  | quoted {t v : List Char} : QuotedCell t v → CellText t v

/-- The text of a row: cells with commas between them. -/
inductive RowText : List Char → List (List Char) → Prop where
  | last {t v : List Char} : CellText t v → RowText t [v]
  | more {t v u : List Char} {r : List (List Char)} : CellText t v → RowText u r → RowText (t ++ ',' :: u) (v :: r)

/-- The text of a table: rows with line breaks between them. Several line breaks in a row count as one. -/
inductive TableText : List Char → List (List (List Char)) → Prop where
  | last {t : List Char} {r : List (List Char)} : RowText t r → TableText t [r]
  | more {t bs u : List Char} {r : List (List Char)} {rs : List (List (List Char))} :
      RowText t r → bs ≠ [] → (∀ ch ∈ bs, LineEnd ch) → (∀ ch, u.head? = some ch → ¬ LineEnd ch) → TableText u rs →
      TableText (t ++ bs ++ u) (r :: rs)

/-- A cell that survives: no double quote, and no white space around it unless it is quoted. -/
structure Survives (v : List Char) : Prop where
  quote : '"' ∉ v
  trimmed : (∃ ch ∈ v, CellEnd ch) ∨ TrimmedText v v

/-- A table in UTF-8. -/
def utf8Table (rows : List (List (List Char))) : List (List Bytes) := rows.map (·.map utf8s)

end Takenoco.Spec
