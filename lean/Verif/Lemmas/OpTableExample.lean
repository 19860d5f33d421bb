import Verif.Lemmas.OpTableRun
/-
Tables of operators: one for every list of kinds and spellings, and those of the formula example.
-/
namespace Takenoco.OpTable
open Spec Spec.Ops

/-! ### Any kinds and spellings -/

/-- The AST of a value. -/
def valueAst (v : Value) : Ast := { Ast.zero with cls := "Operand", val := v }

/-- What a transformer returns for the result of an operator. -/
def resultOut : Except Failure Value → Out (List Ast × Option Err)
  | .ok v => .ok ([valueAst v], none)
  | .error (.err e) => .ok ([], some e)
  | .error (.panic x) => .panic x

/-- A transformer that takes the operator and the operands out of the ASTs and applies `app`. -/
def kindTr (app : Bytes → List Value → Except Failure Value) (f : Fixity) : TSem := fun _ asts =>
  match f, (asts.map (·.val) : List Value) with
  | .pre, [.str s, x] => resultOut (app s [x])
  | .post, [x, .str s] => resultOut (app s [x])
  | .left, [x, .str s, y] => resultOut (app s [x, y])
  | .right, [x, .str s, y] => resultOut (app s [x, y])
  | .cond, [x, .str s, y, _, z] => resultOut (app s [x, y, z])
  | _, _ => .panic .index

/-- The table with the given kinds and spellings. -/
def tableOf (app : Nat → Bytes → List Value → Except Failure Value) (kinds : List (Fixity × List Bytes)) : Table :=
  kinds.mapIdx fun i k => ⟨k.1, k.2, kindTr (app i) k.1⟩

/-- No spelling occurs on two levels of the same class. -/
def NoneTwice (kinds : List (Fixity × List Bytes)) : Prop :=
  kinds.Pairwise fun k m => k.1.cls = m.1.cls → ∀ s ∈ k.2, s ∉ m.2

instance (kinds : List (Fixity × List Bytes)) : Decidable (NoneTwice kinds) := by unfold NoneTwice; infer_instance

/-- Values are the operands. -/
def IsValue (a : Ast) (v : Value) : Prop := a.cls = "Operand" ∧ a.val = v

theorem tableOf_get {app : Nat → Bytes → List Value → Except Failure Value} {kinds : List (Fixity × List Bytes)} {i : Nat} {L : OpLevel}
    (h : (tableOf app kinds)[i]? = some L) : ∃ k, kinds[i]? = some k ∧ L = ⟨k.1, k.2, kindTr (app i) k.1⟩ := by
  simp only [tableOf, List.getElem?_mapIdx] at h
  cases hk : kinds[i]? with
  | none => rw [hk] at h; cases h
  | some k => rw [hk] at h; cases h; exact ⟨k, rfl, rfl⟩

theorem matching_cons {α β : Type} {R : α → β → Prop} {l : List α} {b : β} {m : List β} (h : Matching R l (b :: m)) :
    ∃ a l', l = a :: l' ∧ R a b ∧ Matching R l' m := by
  cases h with
  | cons h1 h2 => exact ⟨_, _, rfl, h1, h2⟩

theorem matching_nil {α β : Type} {R : α → β → Prop} {l : List α} (h : Matching R l ([] : List β)) : l = [] := by
  cases h; rfl

theorem tableOf_proper (app : Nat → Bytes → List Value → Except Failure Value) (kinds : List (Fixity × List Bytes)) (h : NoneTwice kinds) :
    Proper (tableOf app kinds) IsValue app where
  operands a d ha f := by rw [ha.1]; cases f <;> decide
  once i j L M s hL hM hc hs hs' := by
    obtain ⟨k, hk, rfl⟩ := tableOf_get hL
    obtain ⟨m, hm, rfl⟩ := tableOf_get hM
    obtain ⟨hi, rfl⟩ := List.getElem?_eq_some_iff.1 hk
    obtain ⟨hj, rfl⟩ := List.getElem?_eq_some_iff.1 hm
    have hp := List.pairwise_iff_getElem.1 h
    rcases Nat.lt_trichotomy i j with hlt | heq | hlt
    · exact absurd hs' (hp i j hi hj hlt hc s hs)
    · exact heq
    · exact absurd hs (hp j i hj hi hlt hc.symm s hs')
  does i L s ds asts c hL hs hd hm := by
    have op : ∀ a, IsTok (tableOf app kinds) IsValue a (.op i s) → a.val = .str s := fun a ⟨_, _, _, _, hv⟩ => hv
    obtain ⟨k, hk, rfl⟩ := tableOf_get hL
    suffices h : kindTr (app i) k.1 c asts = resultOut (app i s ds) by
      generalize app i s ds = r at h
      rcases r with (_ | _) | d
      · exact ⟨[], h⟩
      · exact h
      · exact ⟨_, ⟨rfl, rfl⟩, h⟩
    obtain ⟨f, ops⟩ := k
    cases f <;> simp only [Fixity.arity] at hd
    · match ds, hd, hm with
      | [x, y], _, hm =>
        obtain ⟨a, l, rfl, ha, hm⟩ := matching_cons hm
        obtain ⟨o, l, rfl, ho, hm⟩ := matching_cons hm
        obtain ⟨b, l, rfl, hb, hm⟩ := matching_cons hm
        cases matching_nil hm
        simp [kindTr, ha.2, op o ho, hb.2]
    · match ds, hd, hm with
      | [x, y], _, hm =>
        obtain ⟨a, l, rfl, ha, hm⟩ := matching_cons hm
        obtain ⟨o, l, rfl, ho, hm⟩ := matching_cons hm
        obtain ⟨b, l, rfl, hb, hm⟩ := matching_cons hm
        cases matching_nil hm
        simp [kindTr, ha.2, op o ho, hb.2]
    · match ds, hd, hm with
      | [x], _, hm =>
        obtain ⟨o, l, rfl, ho, hm⟩ := matching_cons hm
        obtain ⟨a, l, rfl, ha, hm⟩ := matching_cons hm
        cases matching_nil hm
        simp [kindTr, ha.2, op o ho]
    · match ds, hd, hm with
      | [x], _, hm =>
        obtain ⟨a, l, rfl, ha, hm⟩ := matching_cons hm
        obtain ⟨o, l, rfl, ho, hm⟩ := matching_cons hm
        cases matching_nil hm
        simp [kindTr, ha.2, op o ho]
    · match ds, hd, hm with
      | [x, y, z], _, hm =>
        obtain ⟨a, l, rfl, ha, hm⟩ := matching_cons hm
        obtain ⟨o, l, rfl, ho, hm⟩ := matching_cons hm
        obtain ⟨b, l, rfl, hb, hm⟩ := matching_cons hm
        obtain ⟨q, l, rfl, hq, hm⟩ := matching_cons hm
        obtain ⟨e, l, rfl, he, hm⟩ := matching_cons hm
        cases matching_nil hm
        simp [kindTr, ha.2, op o ho, hb.2, he.2]

/-! ### The formula example -/

/-- The operators of the formula example. -/
def formulaTable : Table :=
  [⟨.pre, [b! "-"], Formula.unaryTr⟩, ⟨.left, [b! "*", b! "/"], Formula.mulDivTr⟩, ⟨.left, [b! "+", b! "-"], Formula.addSubTr⟩]

/-- Its rules are those of the table. -/
theorem formulaTable_production : formulaTable.production = Formula.formulaProductionRules := rfl

/-- What they do. -/
def formulaApp : Nat → Bytes → List Int64 → Except Failure Int64
  | 0, _, [x] => .ok (int64Neg x)
  | _, s, [x, y] =>
    if s = b! "*" then .ok (Int64.ofInt (x.toInt * y.toInt))
    else if s = b! "/" then (if y = 0 then .error (.panic .divZero) else .ok (Int64.ofInt (x.toInt.tdiv y.toInt)))
    else if s = b! "+" then .ok (Int64.ofInt (x.toInt + y.toInt))
    else .ok (Int64.ofInt (x.toInt - y.toInt))
  | _, _, _ => .error (.panic .index)

def IsNumber (a : Ast) (v : Int64) : Prop := a.cls = "Number" ∧ a.val = .int v

theorem formulaTable_proper : Proper formulaTable IsNumber formulaApp where
  operands a d ha f := by rw [ha.1]; cases f <;> decide
  once i j L M s hL hM hc hs hs' := by
    match i, j, hL, hM with
    | 0, 0, _, _ => rfl
    | 1, 1, _, _ => rfl
    | 2, 2, _, _ => rfl
    | 0, 1, hL, hM => cases hL; cases hM; exact absurd hc (by decide)
    | 0, 2, hL, hM => cases hL; cases hM; exact absurd hc (by decide)
    | 1, 0, hL, hM => cases hL; cases hM; exact absurd hc (by decide)
    | 2, 0, hL, hM => cases hL; cases hM; exact absurd hc (by decide)
    | 1, 2, hL, hM =>
      cases hL; cases hM
      simp only [List.mem_cons, List.not_mem_nil, or_false] at hs hs'
      rcases hs with rfl | rfl <;> rcases hs' with h | h <;> cases h
    | 2, 1, hL, hM =>
      cases hL; cases hM
      simp only [List.mem_cons, List.not_mem_nil, or_false] at hs hs'
      rcases hs with rfl | rfl <;> rcases hs' with h | h <;> cases h
    | i + 3, _, hL, _ => simp [formulaTable] at hL
    | 0, j + 3, _, hM => simp [formulaTable] at hM
    | 1, j + 3, _, hM => simp [formulaTable] at hM
    | 2, j + 3, _, hM => simp [formulaTable] at hM
  does i L s ds asts c hL hs hd hm := by
    have op : ∀ a, IsTok formulaTable IsNumber a (.op i s) → a.val = .str s := fun a ⟨_, _, _, _, hv⟩ => hv
    match i, hL with
    | 0, hL =>
      cases hL
      match ds, hd, hm with
      | [x], _, hm =>
        obtain ⟨o, l, rfl, ho, hm⟩ := matching_cons hm
        obtain ⟨a, l, rfl, ha, hm⟩ := matching_cons hm
        cases matching_nil hm
        simp only [List.mem_singleton] at hs
        subst hs
        have := op o ho
        refine ⟨Formula.numAst (int64Neg x), ⟨rfl, rfl⟩, ?_⟩
        simp [Formula.unaryTr, goGet, this, ha.2, asStr, Formula.asInt, int64_neg]
    | 1, hL =>
      cases hL
      match ds, hd, hm with
      | [x, y], _, hm =>
        obtain ⟨a, l, rfl, ha, hm⟩ := matching_cons hm
        obtain ⟨o, l, rfl, ho, hm⟩ := matching_cons hm
        obtain ⟨b, l, rfl, hb, hm⟩ := matching_cons hm
        cases matching_nil hm
        have hov := op o ho
        simp only [List.mem_cons, List.not_mem_nil, or_false] at hs
        rcases hs with rfl | rfl
        · exact ⟨_, ⟨rfl, rfl⟩, (formulaBinary_ok (op := .mul) ha.2 hov hb.2 c).1 _ rfl⟩
        · by_cases h0 : y = 0
          · have := (formulaBinary_ok (op := .div) ha.2 hov hb.2 c).2 (by simp [int64Op, h0])
            have e : formulaApp 1 [0x2f] [x, y] = .error (.panic .divZero) := by simp [formulaApp, h0]
            rw [e]; exact this
          · have := (formulaBinary_ok (op := .div) ha.2 hov hb.2 c).1 _ (by simp [int64Op, h0]; rfl)
            have e : formulaApp 1 [0x2f] [x, y] = .ok (Int64.ofInt (x.toInt.tdiv y.toInt)) := by simp [formulaApp, h0]
            rw [e]; exact ⟨_, ⟨rfl, rfl⟩, this⟩
    | 2, hL =>
      cases hL
      match ds, hd, hm with
      | [x, y], _, hm =>
        obtain ⟨a, l, rfl, ha, hm⟩ := matching_cons hm
        obtain ⟨o, l, rfl, ho, hm⟩ := matching_cons hm
        obtain ⟨b, l, rfl, hb, hm⟩ := matching_cons hm
        cases matching_nil hm
        have hov := op o ho
        simp only [List.mem_cons, List.not_mem_nil, or_false] at hs
        rcases hs with rfl | rfl
        · exact ⟨_, ⟨rfl, rfl⟩, (formulaBinary_ok (op := .add) ha.2 hov hb.2 c).1 _ rfl⟩
        · exact ⟨_, ⟨rfl, rfl⟩, (formulaBinary_ok (op := .sub) ha.2 hov hb.2 c).1 _ rfl⟩
    | i + 3, hL => simp [formulaTable] at hL

end Takenoco.OpTable
