import Verif.Spec.Peg
import Verif.Model.Transformers
/-
Specification vocabulary for object parsers and for equality of ASTs.
-/
namespace Takenoco.Spec

/-- The context after consuming `n` elements as a token with class name `cls`, type tag `ty` and value `v`. -/
def objAdvance (cls : String) (ty : AstType) (v : Value) (n : Nat) (c : Ctx) : Ctx :=
  { c with
    pos := c.pos + n
    len := n
    qty := 1
    status := .matched
    cls := cls
    stack := c.stack ++ [{ opCode := 0, cls := cls, ty := ty, val := v, pos := c.pos, len := c.len }] }

/-- The bit pattern is that of a NaN. -/
def IsNaN (b : UInt64) : Prop := 0x7ff0000000000000 < b.toNat % 2 ^ 63

/-- IEEE-754 equality of two bit patterns. -/
def FloatEq (a b : UInt64) : Prop := ¬ IsNaN a ∧ ¬ IsNaN b ∧ (a = b ∨ (a.toNat % 2 ^ 63 = 0 ∧ b.toNat % 2 ^ 63 = 0))

mutual
/-- Deep equality of Go values: same type, same content; floats compared as floats; functions are equal to
nothing. -/
inductive ValEq : Value → Value → Prop where
  | nil : ValEq .nil .nil
  | rune {a : Int32} : ValEq (.rune a) (.rune a)
  | int {a : Int64} : ValEq (.int a) (.int a)
  | uint {a : UInt64} : ValEq (.uint a) (.uint a)
  | float {a b : UInt64} : FloatEq a b → ValEq (.float a) (.float b)
  | bool {a : Bool} : ValEq (.bool a) (.bool a)
  | str {a : Bytes} : ValEq (.str a) (.str a)
  | cons {a b c d : Ast} : WholeEq a c → WholeEq b d → ValEq (.cons a b) (.cons c d)
  | list {a b : List Ast} : WholeEqs a b → ValEq (.list a) (.list b)
  | strs {a : List Bytes} : ValEq (.strs a) (.strs a)
  | strss {a : List (List Bytes)} : ValEq (.strss a) (.strss a)
  | ast {a b : Ast} : WholeEq a b → ValEq (.ast a) (.ast b)
  | slice {a b : List Value} : ValEqs a b → ValEq (.slice a) (.slice b)
  | time {a : Int} {b : Nat} : ValEq (.time a b) (.time a b)
  | opaque {a : Nat} : ValEq (.opaque a) (.opaque a)
/-- Deep equality of two ASTs, all fields. -/
inductive WholeEq : Ast → Ast → Prop where
  | mk {o : UInt64} {c : String} {t : AstType} {v w : Value} {p l : Nat} : ValEq v w → WholeEq ⟨o, c, t, v, p, l⟩ ⟨o, c, t, w, p, l⟩
/-- element-wise -/
inductive WholeEqs : List Ast → List Ast → Prop where
  | nil : WholeEqs [] []
  | cons {a b : Ast} {as bs : List Ast} : WholeEq a b → WholeEqs as bs → WholeEqs (a :: as) (b :: bs)
/-- element-wise -/
inductive ValEqs : List Value → List Value → Prop where
  | nil : ValEqs [] []
  | cons {a b : Value} {as bs : List Value} : ValEq a b → ValEqs as bs → ValEqs (a :: as) (b :: bs)
end

mutual
/-- Two ASTs agree on class name, type and value, recursively through cons cells and lists; opcodes and
source positions do not count. -/
inductive AstEq : Ast → Ast → Prop where
  | cons {o o' : UInt64} {n : String} {p p' l l' : Nat} {a b c d : Ast} : AstEq a c → AstEq b d →
      AstEq ⟨o, n, .astCons, .cons a b, p, l⟩ ⟨o', n, .astCons, .cons c d, p', l'⟩
  | list {o o' : UInt64} {n : String} {p p' l l' : Nat} {a b : List Ast} : AstEqs a b →
      AstEq ⟨o, n, .listOfAst, .list a, p, l⟩ ⟨o', n, .listOfAst, .list b, p', l'⟩
  | leaf {o o' : UInt64} {n : String} {p p' l l' : Nat} {t : AstType} {v w : Value} :
      t ≠ .astCons → t ≠ .listOfAst → ValEq v w → AstEq ⟨o, n, t, v, p, l⟩ ⟨o', n, t, w, p', l'⟩
/-- element-wise -/
inductive AstEqs : List Ast → List Ast → Prop where
  | nil : AstEqs [] []
  | cons {a b : Ast} {as bs : List Ast} : AstEq a b → AstEqs as bs → AstEqs (a :: as) (b :: bs)
end

mutual
/-- The type tags `AstCons` and `ListOfAst` are used for such values, at every level. -/
inductive WellTyped : Ast → Prop where
  | cons {o : UInt64} {n : String} {p l : Nat} {a b : Ast} : WellTyped a → WellTyped b → WellTyped ⟨o, n, .astCons, .cons a b, p, l⟩
  | list {o : UInt64} {n : String} {p l : Nat} {a : List Ast} : WellTypeds a → WellTyped ⟨o, n, .listOfAst, .list a, p, l⟩
  | leaf {o : UInt64} {n : String} {p l : Nat} {t : AstType} {v : Value} : t ≠ .astCons → t ≠ .listOfAst → WellTyped ⟨o, n, t, v, p, l⟩
/-- all of them -/
inductive WellTypeds : List Ast → Prop where
  | nil : WellTypeds []
  | cons {a : Ast} {as : List Ast} : WellTyped a → WellTypeds as → WellTypeds (a :: as)
end

mutual
/-- Values that contain no NaN and no function. -/
inductive Reflexive : Value → Prop where
  | nil : Reflexive .nil
  | rune {a : Int32} : Reflexive (.rune a)
  | int {a : Int64} : Reflexive (.int a)
  | uint {a : UInt64} : Reflexive (.uint a)
  | float {a : UInt64} : ¬ IsNaN a → Reflexive (.float a)
  | bool {a : Bool} : Reflexive (.bool a)
  | str {a : Bytes} : Reflexive (.str a)
  | cons {a b : Ast} : ReflexiveAst a → ReflexiveAst b → Reflexive (.cons a b)
  | list {a : List Ast} : ReflexiveAsts a → Reflexive (.list a)
  | strs {a : List Bytes} : Reflexive (.strs a)
  | strss {a : List (List Bytes)} : Reflexive (.strss a)
  | ast {a : Ast} : ReflexiveAst a → Reflexive (.ast a)
  | slice {a : List Value} : Reflexives a → Reflexive (.slice a)
  | time {a : Int} {b : Nat} : Reflexive (.time a b)
  | opaque {a : Nat} : Reflexive (.opaque a)
/-- ASTs that contain no NaN and no function. -/
inductive ReflexiveAst : Ast → Prop where
  | mk {o : UInt64} {c : String} {t : AstType} {v : Value} {p l : Nat} : Reflexive v → ReflexiveAst ⟨o, c, t, v, p, l⟩
/-- all of them -/
inductive ReflexiveAsts : List Ast → Prop where
  | nil : ReflexiveAsts []
  | cons {a : Ast} {as : List Ast} : ReflexiveAst a → ReflexiveAsts as → ReflexiveAsts (a :: as)
/-- all of them -/
inductive Reflexives : List Value → Prop where
  | nil : Reflexives []
  | cons {a : Value} {as : List Value} : Reflexive a → Reflexives as → Reflexives (a :: as)
end

end Takenoco.Spec
