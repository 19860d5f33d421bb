import Verif.Model.Types
/-
Lines of a text, and how the place of an error is shown.
-/
namespace Takenoco.Spec

/-- The text has no line break. -/
def NoBreak (s : Bytes) : Prop := ∀ b ∈ s, b ≠ 0x0d ∧ b ≠ 0x0a

/-- CR LF, LF or CR. -/
def IsBreak (b : Bytes) : Prop := b = [0x0d, 0x0a] ∨ b = [0x0a] ∨ b = [0x0d]

/-- `Lines t ls last`: the text consists of the complete lines `ls`, each one given with its line break, and the rest `last`.
CR LF is one line break. -/
inductive Lines : Bytes → List (Bytes × Bytes) → Bytes → Prop where
  | last {l : Bytes} : NoBreak l → Lines l [] l
  | line {l b t : Bytes} {ls : List (Bytes × Bytes)} {last : Bytes} : NoBreak l → IsBreak b → (b = [0x0d] → t.head? ≠ some 0x0a) →
      Lines t ls last → Lines (l ++ b ++ t) ((l, b) :: ls) last

/-- Every tab becomes `n` spaces. -/
def expandTabs (n : Nat) : Bytes → Bytes
  | [] => []
  | c :: cs => (if c = 0x09 then List.replicate n 0x20 else [c]) ++ expandTabs n cs

/-- How the place is shown: the line before (if there is one) and the line of the error, which is `last ++ rest`, and below it the
marker, in the column of the error. The text ends as the line before does, in LF or CR. -/
def display (n : Nat) (ls : List (Bytes × Bytes)) (last rest : Bytes) : Bytes :=
  (match ls.getLast? with
  | none => b! " > | " ++ expandTabs n (last ++ rest) ++ [0x0a]
  | some (l, b) => b! "   | " ++ expandTabs n l ++ b ++ b! " > | " ++ expandTabs n (last ++ rest) ++ (if b = [0x0d] then [0x0d] else [0x0a]))
  ++ b! "   | " ++ List.replicate (expandTabs n last).length 0x20 ++ b! "^^^^"

end Takenoco.Spec
