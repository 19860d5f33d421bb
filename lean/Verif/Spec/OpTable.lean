import Verif.Model.Examples.Formula
/-
Specification of operator expressions over an arbitrary table of operators: the usual unambiguous grammar with one
nonterminal per level of precedence, and the value of an expression.
-/
namespace Takenoco.Spec.Ops

/-- How an operator is written, and how it associates. -/
inductive Fixity where
  /-- `x op y`, associating to the left -/
  | left
  /-- `x op y`, associating to the right -/
  | right
  /-- `op x` -/
  | pre
  /-- `x op` -/
  | post
  /-- `x op y : z`, associating to the right -/
  | cond
  deriving DecidableEq

/-- `Rtol` for the operators: chains of operators that bind to their right are reduced from the right. -/
def Fixity.rtol : Fixity → Bool
  | .left | .post => false
  | .right | .pre | .cond => true

/-- The class names of the operators. Those of `/repo/_examples/formula/formula.go:54-73` for the operators there. -/
def Fixity.cls : Fixity → String
  | .left | .right => "BinaryOperator"
  | .pre => "UnaryOperator"
  | .post => "PostfixOperator"
  | .cond => "ConditionalOperator"

/-- The class name of the colon. -/
def sepCls : String := "Separator"

/-- The operators of one precedence: how they are written, their spellings, and the transformer that evaluates them. -/
structure OpLevel where
  fixity : Fixity
  ops : List Bytes
  tr : TSem

/-- The tightest level first. -/
abbrev Table := List OpLevel

/-- The rule of a level, in the style of `/repo/_examples/formula/precedence.go:11-94`: operands and operators are taken
with `anyOperand` and `isOperator` (helper.go:29-36). -/
def OpLevel.rule (L : OpLevel) : Gram :=
  .trans (.flatGroup (match L.fixity with
    | .left | .right => [Formula.anyOperand, Formula.isOperator L.fixity.cls L.ops, Formula.anyOperand]
    | .pre => [Formula.isOperator L.fixity.cls L.ops, Formula.anyOperand]
    | .post => [Formula.anyOperand, Formula.isOperator L.fixity.cls L.ops]
    | .cond => [Formula.anyOperand, Formula.isOperator L.fixity.cls L.ops, Formula.anyOperand,
        Formula.isOperator sepCls [b! ":"], Formula.anyOperand])) [.fn L.tr]

/-- The production rule of a table: a `Precedence` for each level, in order. -/
def Table.production (T : Table) : Tr := .production (T.map fun L => ([L.rule], L.fixity.rtol)) Formula.checkG

/-- Expressions. An operator is given by its level and its spelling. -/
inductive Term (D : Type) where
  | operand (d : D)
  | inf (i : Nat) (s : Bytes) (l r : Term D)
  | pre (i : Nat) (s : Bytes) (e : Term D)
  | post (i : Nat) (s : Bytes) (e : Term D)
  | cond (i : Nat) (s : Bytes) (c a b : Term D)

/-- `Word T n e`: `e` is an expression of the operators of the first `n` levels that needs no parentheses. On the side to
which an operator associates there may be operators of its own level, on the other one only tighter ones. -/
inductive Word {D : Type} (T : Table) : Nat → Term D → Prop where
  | operand {n : Nat} {d : D} : Word T n (.operand d)
  | left {n i : Nat} {s : Bytes} {l r : Term D} {L : OpLevel} : i < n → T[i]? = some L → L.fixity = .left → s ∈ L.ops →
      Word T (i + 1) l → Word T i r → Word T n (.inf i s l r)
  | right {n i : Nat} {s : Bytes} {l r : Term D} {L : OpLevel} : i < n → T[i]? = some L → L.fixity = .right → s ∈ L.ops →
      Word T i l → Word T (i + 1) r → Word T n (.inf i s l r)
  | pre {n i : Nat} {s : Bytes} {e : Term D} {L : OpLevel} : i < n → T[i]? = some L → L.fixity = .pre → s ∈ L.ops →
      Word T (i + 1) e → Word T n (.pre i s e)
  | post {n i : Nat} {s : Bytes} {e : Term D} {L : OpLevel} : i < n → T[i]? = some L → L.fixity = .post → s ∈ L.ops →
      Word T (i + 1) e → Word T n (.post i s e)
  | cond {n i : Nat} {s : Bytes} {c a b : Term D} {L : OpLevel} : i < n → T[i]? = some L → L.fixity = .cond → s ∈ L.ops →
      Word T i c → Word T (i + 1) a → Word T (i + 1) b → Word T n (.cond i s c a b)

/-- A token. -/
inductive OpTok (D : Type) where
  | operand (d : D)
  | op (i : Nat) (s : Bytes)
  | colon

/-- The expression as it is written. -/
def Term.toks {D : Type} : Term D → List (OpTok D)
  | .operand d => [.operand d]
  | .inf i s l r => l.toks ++ .op i s :: r.toks
  | .pre i s e => .op i s :: e.toks
  | .post i s e => e.toks ++ [.op i s]
  | .cond i s c a b => c.toks ++ .op i s :: (a.toks ++ .colon :: b.toks)

/-- An operator may fail. -/
inductive Failure where
  | err (e : Err)
  | panic (x : Panic)

section
variable {D : Type} (app : Nat → Bytes → List D → Except Failure D)

/-- The value of an expression; `app` says what the operators do. -/
def Term.value : Term D → Except Failure D
  | .operand d => .ok d
  | .inf i s l r => l.value.bind fun x => r.value.bind fun y => app i s [x, y]
  | .pre i s e => e.value.bind fun x => app i s [x]
  | .post i s e => e.value.bind fun x => app i s [x]
  | .cond i s c a b => c.value.bind fun x => a.value.bind fun y => b.value.bind fun z => app i s [x, y, z]

/-- An operator of the expression fails, applied to the values of its operands. -/
inductive Breaks : Term D → Failure → Prop where
  | inf {i : Nat} {s : Bytes} {l r : Term D} {x y : D} {f : Failure} : l.value app = .ok x → r.value app = .ok y →
      app i s [x, y] = .error f → Breaks (.inf i s l r) f
  | pre {i : Nat} {s : Bytes} {e : Term D} {x : D} {f : Failure} : e.value app = .ok x → app i s [x] = .error f →
      Breaks (.pre i s e) f
  | post {i : Nat} {s : Bytes} {e : Term D} {x : D} {f : Failure} : e.value app = .ok x → app i s [x] = .error f →
      Breaks (.post i s e) f
  | cond {i : Nat} {s : Bytes} {c a b : Term D} {x y z : D} {f : Failure} : c.value app = .ok x → a.value app = .ok y →
      b.value app = .ok z → app i s [x, y, z] = .error f → Breaks (.cond i s c a b) f
  | infL {i : Nat} {s : Bytes} {l r : Term D} {f : Failure} : Breaks l f → Breaks (.inf i s l r) f
  | infR {i : Nat} {s : Bytes} {l r : Term D} {f : Failure} : Breaks r f → Breaks (.inf i s l r) f
  | preE {i : Nat} {s : Bytes} {e : Term D} {f : Failure} : Breaks e f → Breaks (.pre i s e) f
  | postE {i : Nat} {s : Bytes} {e : Term D} {f : Failure} : Breaks e f → Breaks (.post i s e) f
  | condC {i : Nat} {s : Bytes} {c a b : Term D} {f : Failure} : Breaks c f → Breaks (.cond i s c a b) f
  | condA {i : Nat} {s : Bytes} {c a b : Term D} {f : Failure} : Breaks a f → Breaks (.cond i s c a b) f
  | condB {i : Nat} {s : Bytes} {c a b : Term D} {f : Failure} : Breaks b f → Breaks (.cond i s c a b) f
end

/-- The lists have the same length, and their elements are related one by one. -/
inductive Matching {α β : Type} (R : α → β → Prop) : List α → List β → Prop where
  | nil : Matching R [] []
  | cons {a : α} {b : β} {l : List α} {m : List β} : R a b → Matching R l m → Matching R (a :: l) (b :: m)

/-- Which ASTs are which tokens; `Opd a d` says that the AST `a` is the operand `d`. -/
def IsTok {D : Type} (T : Table) (Opd : Ast → D → Prop) (a : Ast) : OpTok D → Prop
  | .operand d => Opd a d
  | .op i s => ∃ L, T[i]? = some L ∧ s ∈ L.ops ∧ a.cls = L.fixity.cls ∧ a.val = .str s
  | .colon => a.cls = sepCls ∧ a.val = .str (b! ":")

/-- The tokens of an operator between operands. -/
def form {D : Type} (f : Fixity) (i : Nat) (s : Bytes) : List D → List (OpTok D)
  | [x] => if f = .pre then [.op i s, .operand x] else [.operand x, .op i s]
  | [x, y] => [.operand x, .op i s, .operand y]
  | [x, y, z] => [.operand x, .op i s, .operand y, .colon, .operand z]
  | _ => []

/-- The number of operands. -/
def Fixity.arity : Fixity → Nat
  | .pre | .post => 1
  | .left | .right => 2
  | .cond => 3

/-- The table is in order: operands have none of the class names of operators, an operator of the same kind and spelling
occurs on one level only, and the transformer of a level does what `app` says: it returns one operand, or it fails. -/
structure Proper {D : Type} (T : Table) (Opd : Ast → D → Prop) (app : Nat → Bytes → List D → Except Failure D) : Prop where
  operands : ∀ a d, Opd a d → ∀ f : Fixity, a.cls ≠ f.cls
  once : ∀ (i j : Nat) (L M : OpLevel) (s : Bytes), T[i]? = some L → T[j]? = some M → L.fixity.cls = M.fixity.cls → s ∈ L.ops → s ∈ M.ops → i = j
  does : ∀ (i : Nat) (L : OpLevel) (s : Bytes) (ds : List D) (asts : List Ast) (c : Ctx), T[i]? = some L → s ∈ L.ops → ds.length = L.fixity.arity →
    Matching (IsTok T Opd) asts (form L.fixity i s ds) →
    match app i s ds with
    | .ok d => ∃ y, Opd y d ∧ L.tr c asts = .ok ([y], none)
    | .error (.err e) => ∃ l, L.tr c asts = .ok (l, some e)
    | .error (.panic x) => L.tr c asts = .panic x

end Takenoco.Spec.Ops
