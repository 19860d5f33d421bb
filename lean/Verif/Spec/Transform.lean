import Verif.Spec.Text
/-
Specification vocabulary for the string transformers.
-/
namespace Takenoco.Spec

/-- The characters that count as white space: HT, LF, VT, FF, CR, SP, NEL, NBSP. -/
def Blank (ch : Char) : Prop := ch ∈ ['\t', '\n', '\x0b', '\x0c', '\r', ' ', '\u0085', '\u00a0']

/-- The string starts with a white space character. -/
def StartsBlank (s : Bytes) : Prop := ∃ ch rest, Blank ch ∧ s = utf8 ch ++ rest
/-- The string ends with a white space character. -/
def EndsBlank (s : Bytes) : Prop := ∃ ch init, Blank ch ∧ s = init ++ utf8 ch

/-- `t` is `s` without the longest prefix of white space. -/
def TrimmedStart (s t : Bytes) : Prop :=
  (∃ ws, (∀ ch ∈ ws, Blank ch) ∧ s = utf8s ws ++ t) ∧ ¬ StartsBlank t
/-- `t` is `s` without the longest suffix of white space. -/
def TrimmedEnd (s t : Bytes) : Prop :=
  (∃ ws, (∀ ch ∈ ws, Blank ch) ∧ s = t ++ utf8s ws) ∧ ¬ EndsBlank t
/-- `t` is `s` without both. -/
def Trimmed (s t : Bytes) : Prop :=
  (∃ ws ws', (∀ ch ∈ ws, Blank ch) ∧ (∀ ch ∈ ws', Blank ch) ∧ s = utf8s ws ++ t ++ utf8s ws') ∧
    ¬ StartsBlank t ∧ ¬ EndsBlank t

/-- The ASTs are strings with these values. -/
inductive Texts : List Ast → List Bytes → Prop where
  | nil : Texts [] []
  | cons {a : Ast} {as : List Ast} {v : Bytes} {vs : List Bytes} :
      a.ty = .string → a.val = .str v → Texts as vs → Texts (a :: as) (v :: vs)

/-- One AST that stands for all of `asts`: it has the class name and source position of the first one, and no
opcode. -/
def summary (asts : List Ast) (ty : AstType) (v : Value) : Ast :=
  match asts with
  | [] => { opCode := 0, cls := "", ty := ty, val := v, pos := 0, len := 0 }
  | a :: _ => { opCode := 0, cls := a.cls, ty := ty, val := v, pos := a.pos, len := a.len }

end Takenoco.Spec
