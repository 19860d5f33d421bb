import Verif.Lemmas.OpTableExample
/-
C99: production rules for any table of operators.
-/
namespace Takenoco
open Spec Spec.Ops OpTable

/-- `ProductionRule` with one `Precedence` for each level of a table of operators (infix operators that associate to the
left or to the right, prefix and postfix operators, conditionals), applied to the tokens of an expression, gives the AST of
its value; if the expression has none, it ends with the failure of one of its operators: the error is returned, or the panic
is not caught. -/
theorem C99_table {D : Type} (T : Table) (Opd : Ast → D → Prop) (app : Nat → Bytes → List D → Except Failure D) (H : Proper T Opd app)
    (env : Env) (c : Ctx) (asts : List Ast) (e : Term D) (hw : Word T T.length e) (h : Matching (IsTok T Opd) asts e.toks) :
    (∀ d, e.value app = .ok d → ∃ y N, Opd y d ∧ ∀ n, N ≤ n → runTr env n T.production c asts = .ok ([y], none)) ∧
    (∀ f, e.value app = .error f → ∃ f' N, Breaks app e f' ∧ ∀ n, N ≤ n → runTr env n T.production c asts =
      match f' with
      | .err x => .ok ([], some x)
      | .panic x => .panic x) := by
  obtain ⟨h1, h2⟩ := ends (env := env) H c.tag asts.length asts e (Nat.le_refl _) hw h
  have back : ∀ r, (∃ N, ∀ n, N ≤ n → productionRule n (levels env T) (den env Formula.checkG) c asts = r) → r ≠ .timeout →
      ∃ N, ∀ n, N ≤ n → runTr env n T.production c asts = r := by
    rintro r ⟨N, hN⟩ hr
    refine runTr_of_den ?_ hr
    have e1 : (levels env T) = (T.map fun L => ([L.rule], L.fixity.rtol)).map fun p => (p.1.map (den env), p.2) := by
      simp [levels, List.map_map, Function.comp_def]
    have hN := hN N (Nat.le_refl _)
    rw [e1] at hN
    unfold Table.production
    rw [denTr_production_of env _ Formula.checkG c asts N (by rw [hN]; exact hr), hN]
  refine ⟨fun d hd => ?_, fun f hf => ?_⟩
  · obtain ⟨y, hy, hp⟩ := h1 d hd
    obtain ⟨N, hN⟩ := back _ (productionLoop_of hp) (by simp [exceptOut])
    exact ⟨y, N, hy, hN⟩
  · obtain ⟨f', hb, hp⟩ := h2 f hf
    cases f' with
    | err x =>
      obtain ⟨N, hN⟩ := back _ (productionLoop_of hp) (by simp [exceptOut])
      exact ⟨_, N, hb, hN⟩
    | panic x =>
      obtain ⟨N, hN⟩ := back _ (productionLoop_panics hp) (by simp)
      exact ⟨_, N, hb, hN⟩

/-- Hence the value of an expression is a matter of how it is written: two expressions of the table that are written alike
and have values give the same operand. -/
theorem C99_written {D : Type} (T : Table) (Opd : Ast → D → Prop) (app : Nat → Bytes → List D → Except Failure D) (H : Proper T Opd app)
    (asts : List Ast) (e e' : Term D) (hw : Word T T.length e) (hw' : Word T T.length e') (h : Matching (IsTok T Opd) asts e.toks)
    (h' : Matching (IsTok T Opd) asts e'.toks) (d d' : D) (hd : e.value app = .ok d) (hd' : e'.value app = .ok d') :
    ∃ y, Opd y d ∧ Opd y d' := by
  obtain ⟨y, N, hy, hN⟩ := (C99_table T Opd app H (fun _ => .prim startP) (overAsts .nil [] 0) asts e hw h).1 d hd
  obtain ⟨y', N', hy', hN'⟩ := (C99_table T Opd app H (fun _ => .prim startP) (overAsts .nil [] 0) asts e' hw' h').1 d' hd'
  have := hN (max N N') (by omega)
  rw [hN' (max N N') (by omega)] at this
  cases this
  exact ⟨y, hy, hy'⟩

/-- There are such rules for every list of kinds and spellings without repetition, and every meaning of the operators. -/
theorem C99_any (app : Nat → Bytes → List Value → Except Failure Value) (kinds : List (Fixity × List Bytes)) (h : NoneTwice kinds) :
    Proper (tableOf app kinds) IsValue app := tableOf_proper app kinds h

/-- The rules of the formula example are the ones of a table. -/
theorem C99_formula : formulaTable.production = Formula.formulaProductionRules ∧ Proper formulaTable IsNumber formulaApp :=
  ⟨rfl, formulaTable_proper⟩

/-! ### Cases -/

/-- Postfix `!` binds tightest, then `^` to the right, then the minus sign, then `*` and `/`, then `+` and `-`, and `?` last. -/
def someKinds : List (Fixity × List Bytes) :=
  [(.post, [b! "!"]), (.right, [b! "^"]), (.pre, [b! "-"]), (.left, [b! "*", b! "/"]), (.left, [b! "+", b! "-"]), (.cond, [b! "?"])]

/-- Arithmetic; a wrong operand is an error, division by zero panics. -/
def someApp : Nat → Bytes → List Value → Except Failure Value
  | 0, _, [.int x] => .ok (.int ((List.range x.toNatClampNeg).foldl (fun r k => r * Int64.ofNat (k + 1)) 1))
  | 1, _, [.int x, .int y] => .ok (.int (List.replicate y.toNatClampNeg x |>.foldl (· * ·) 1))
  | 2, _, [.int x] => .ok (.int (-x))
  | 3, s, [.int x, .int y] => if s = b! "*" then .ok (.int (x * y)) else if y = 0 then .error (.panic .divZero) else .ok (.int (x / y))
  | 4, s, [.int x, .int y] => if s = b! "+" then .ok (.int (x + y)) else .ok (.int (x - y))
  | 5, _, [.int x, y, z] => .ok (if x = 0 then z else y)
  | _, _, _ => .error (.err (.msg "not a number"))

def someTable : Table := tableOf someApp someKinds

def num (v : Int64) : Term Value := .operand (.int v)

/-- The AST of a token. -/
def tokenAst : OpTok Value → Ast
  | .operand v => valueAst v
  | .op i s => { Ast.zero with cls := (match someKinds[i]? with | some k => k.1 | none => Fixity.pre).cls, val := .str s }
  | .colon => { Ast.zero with cls := sepCls, val := .str (b! ":") }

/-- The operators of a token list belong to the table. -/
def Belong (ts : List (OpTok Value)) : Prop := ∀ i s, .op i s ∈ ts → ∃ k, someKinds[i]? = some k ∧ s ∈ k.2

theorem tokenAsts (ts : List (OpTok Value)) (h : Belong ts) : Matching (IsTok someTable IsValue) (ts.map tokenAst) ts := by
  induction ts with
  | nil => exact .nil
  | cons t ts ih =>
    refine .cons ?_ (ih fun i s hs => h i s (by simp [hs]))
    cases t with
    | operand v => exact ⟨rfl, rfl⟩
    | colon => exact ⟨rfl, rfl⟩
    | op i s =>
      obtain ⟨k, hk, hs⟩ := h i s (by simp)
      exact ⟨⟨k.1, k.2, kindTr (someApp i) k.1⟩, by simp [someTable, tableOf, List.getElem?_mapIdx, hk], hs, by simp [tokenAst, hk], rfl⟩

/-- `- 2 ^ 3 ^ 2 + 3 ! * 4` is `-(2 ^ (3 ^ 2)) + (3 !) * 4`. -/
def someTerm : Term Value :=
  .inf 4 (b! "+") (.pre 2 (b! "-") (.inf 1 (b! "^") (num 2) (.inf 1 (b! "^") (num 3) (num 2))))
    (.inf 3 (b! "*") (.post 0 (b! "!") (num 3)) (num 4))

theorem someTerm_word : Word someTable 6 someTerm :=
  .left (by decide) rfl rfl (by decide)
    (.pre (by decide) rfl rfl (by decide) (.right (by decide) rfl rfl (by decide) .operand
      (.right (by decide) rfl rfl (by decide) .operand .operand)))
    (.left (by decide) rfl rfl (by decide) (.post (by decide) rfl rfl (by decide) .operand) .operand)

theorem someTerm_belong : Belong someTerm.toks := by
  intro i s h
  simp [someTerm, Term.toks, num] at h
  rcases h with ⟨rfl, rfl⟩ | ⟨rfl, rfl⟩ | ⟨rfl, rfl⟩ | ⟨rfl, rfl⟩ | ⟨rfl, rfl⟩ <;> exact ⟨_, rfl, by decide⟩

/-- It is -488. -/
example (env : Env) (c : Ctx) : ∃ y N, IsValue y (.int (-488)) ∧ ∀ n, N ≤ n →
    runTr env n someTable.production c (someTerm.toks.map tokenAst) = .ok ([y], none) :=
  (C99_table someTable IsValue someApp (C99_any _ _ (by decide)) env c _ someTerm someTerm_word (tokenAsts _ someTerm_belong)).1 _ rfl

/-- `0 ? 1 : 0 ? 2 : 5 / 0`: the second conditional belongs to the first one, and all operands are evaluated. -/
def badTerm : Term Value :=
  .cond 5 (b! "?") (num 0) (num 1) (.cond 5 (b! "?") (num 0) (num 2) (.inf 3 (b! "/") (num 5) (num 0)))

theorem badTerm_word : Word someTable 6 badTerm :=
  .cond (by decide) rfl rfl (by decide) .operand .operand (.cond (by decide) rfl rfl (by decide) .operand .operand
    (.left (by decide) rfl rfl (by decide) .operand .operand))

example (env : Env) (c : Ctx) : ∃ f N, Breaks someApp badTerm f ∧ ∀ n, N ≤ n →
    runTr env n someTable.production c (badTerm.toks.map tokenAst) =
      match f with
      | .err x => .ok ([], some x)
      | .panic x => .panic x :=
  (C99_table someTable IsValue someApp (C99_any _ _ (by decide)) env c _ badTerm badTerm_word (tokenAsts _ (by
    intro i s h
    simp [badTerm, Term.toks, num] at h
    rcases h with ⟨rfl, rfl⟩ | ⟨rfl, rfl⟩ <;> exact ⟨_, rfl, by decide⟩))).2 (.panic .divZero) rfl

/-- With the same operators, `2 ^ 3 ^ 2` is not `(2 ^ 3) ^ 2`. -/
example : ¬ Word someTable 6 (.inf 1 (b! "^") (.inf 1 (b! "^") (num 2) (num 3)) (num 2)) := by
  intro h
  cases h with
  | left _ h1 h2 => cases h1; cases h2
  | right _ _ _ _ h1 _ =>
    cases h1 with
    | left h => omega
    | right h => omega

/-- The formula example: `1 - -2 * 3` is 7. -/
example (env : Env) (c : Ctx) (l : List Ast)
    (h : Matching (IsTok formulaTable IsNumber) l [.operand 1, .op 2 (b! "-"), .op 0 (b! "-"), .operand 2, .op 1 (b! "*"), .operand 3]) :
    ∃ y N, IsNumber y 7 ∧ ∀ n, N ≤ n → runTr env n Formula.formulaProductionRules c l = .ok ([y], none) :=
  (C99_table formulaTable IsNumber formulaApp C99_formula.2 env c l
    (.inf 2 (b! "-") (.operand 1) (.inf 1 (b! "*") (.pre 0 (b! "-") (.operand 2)) (.operand 3)))
    (.left (by decide) rfl rfl (by decide) .operand
      (.left (by decide) rfl rfl (by decide) (.pre (by decide) rfl rfl (by decide) .operand) .operand)) h).1 7 rfl

#print axioms C99_table
#print axioms C99_written
#print axioms C99_any
#print axioms C99_formula

end Takenoco
