import Verif.Spec.Csv
/-
The texts in which something follows a quoted cell.
-/
namespace Takenoco.Spec

/-- What can follow neither a cell nor the blanks behind a quoted cell. -/
def Junk (ch : Char) : Prop := ¬ LineBlank ch ∧ ¬ CellEnd ch ∧ ch ≠ '"'

/-- A row in which something else than a comma, a line break or the end of the text follows a quoted cell; anything is behind this. -/
inductive BrokenRow : List Char → Prop where
  | here {q v : List Char} {ch : Char} {u : List Char} : QuotedCell q v → Junk ch → BrokenRow (q ++ ch :: u)
  | more {t v u : List Char} : CellText t v → BrokenRow u → BrokenRow (t ++ ',' :: u)

/-- Rows and then such a row. -/
inductive BrokenTable : List Char → Prop where
  | here {t : List Char} : BrokenRow t → BrokenTable t
  | more {t bs u : List Char} {r : List (List Char)} : RowText t r → bs ≠ [] → (∀ ch ∈ bs, LineEnd ch) →
      (∀ ch, u.head? = some ch → ¬ LineEnd ch) → BrokenTable u → BrokenTable (t ++ bs ++ u)

end Takenoco.Spec
