import Verif.Spec.Blame
import Verif.Spec.Lines
import Verif.Spec.Text
/-
What the error messages of the examples look like.
-/
namespace Takenoco.Spec

/-- `Report s pos why m`: the message `m` blames position `pos` of the text `s` with the reason `why`. It has the reason, the line and
column in decimal, and the picture of the place. -/
def Report (s : Bytes) (pos : Nat) (why m : Bytes) : Prop :=
  pos ≤ s.length ∧ ∃ ls last rest tail, Lines (s.take pos) ls last ∧ s.drop pos = rest ++ tail ∧ NoBreak rest ∧
    (∀ b, tail.head? = some b → b = 0x0d ∨ b = 0x0a) ∧
    m = why ++ utf8s (s!"\n --> Line {ls.length + 1}, Col {last.length + 1}\n").toList ++ display 4 ls last rest

/-- The reasons that the formula and torpn examples give behind the text `u`. -/
inductive Reason : Bytes → Bytes → Prop where
  | value {u : Bytes} : Blamed (.msg "Value required") u → Reason (b! "Value required") u
  | operand {u : Bytes} : Blamed (.msg "Error in the expression after the binary operator") u →
      Reason (b! "Error in the expression after the binary operator") u
  | group {u : Bytes} : Blamed (.msg "Error in grouped expression") u → Reason (b! "Error in grouped expression") u
  | range {t u : Bytes} : Blamed (.strconv t .range) u → Reason (b! "strconv.ParseInt: parsing \"" ++ t ++ b! "\": value out of range") u

end Takenoco.Spec
