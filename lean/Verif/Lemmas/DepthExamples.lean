import Verif.Lemmas.DepthRec
import Verif.Lemmas.DepthLower
import Verif.Lemmas.TermTerminals
import Verif.Lemmas.TraceAll
import Verif.Model.Examples.Csv
import Verif.Model.Examples.ToRpn
/-
The levels of grammars, computed.
-/
namespace Takenoco
open Spec Trace

/-! ### Without recursion -/

/-- Every grammar in the transformer has `f`. -/
def trAll (f : Gram → Bool) : Tr → Bool
  | .fn _ => true
  | .production precs check => precs.all (fun p => p.1.all f) && f check

/-- The grammar has at most `k` levels and does not use `Indirect`. -/
def fitsIn : Nat → Gram → Bool
  | 0, _ => false
  | _ + 1, .prim _ => true
  | k + 1, .flatGroup gs => gs.all (fitsIn k)
  | k + 1, .group gs => gs.all (fitsIn k)
  | k + 1, .first gs => gs.all (fitsIn k)
  | k + 1, .lookAhead gs => gs.all (fitsIn k)
  | k + 1, .lookAheadN gs => gs.all (fitsIn k)
  | k + 1, .lookBehind _ _ gs => gs.all (fitsIn k)
  | k + 1, .lookBehindN _ _ gs => gs.all (fitsIn k)
  | k + 1, .repeat _ gs => gs.all (fitsIn k)
  | k + 1, .trans g ts => fitsIn k g && ts.all (trAll (fitsIn k))
  | _, _ => false

theorem mem_tracedList {i : Info} {g' : TGram} : ∀ {gs : List Gram}, g' ∈ tracedList i gs → ∃ g ∈ gs, g' = g.traced i
  | [], h => by simp [tracedList] at h
  | g :: gs, h => by
    rw [tracedList] at h
    rcases List.mem_cons.1 h with h | h
    · exact ⟨g, by simp, h⟩
    · obtain ⟨g, hg, h⟩ := mem_tracedList h
      exact ⟨g, by simp [hg], h⟩

theorem mem_tracedTrs {i : Info} {t' : TTr} : ∀ {ts : List Tr}, t' ∈ tracedTrs i ts → ∃ t ∈ ts, t' = t.traced i
  | [], h => by simp [tracedTrs] at h
  | t :: ts, h => by
    rw [tracedTrs] at h
    rcases List.mem_cons.1 h with h | h
    · exact ⟨t, by simp, h⟩
    · obtain ⟨t, ht, h⟩ := mem_tracedTrs h
      exact ⟨t, by simp [ht], h⟩

theorem mem_tracedPrecs {i : Info} {x : List TGram × Bool} : ∀ {ps : List (List Gram × Bool)}, x ∈ tracedPrecs i ps → ∃ p ∈ ps, x = tracedPrec i p
  | [], h => by simp [tracedPrecs] at h
  | p :: ps, h => by
    rw [tracedPrecs] at h
    rcases List.mem_cons.1 h with h | h
    · exact ⟨p, by simp, h⟩
    · obtain ⟨p, hp, h⟩ := mem_tracedPrecs h
      exact ⟨p, by simp [hp], h⟩

theorem trAll_tall {tenv : TEnv} {i : Info} {k : Nat} (ih : ∀ g, fitsIn k g = true → Tall tenv k (.gram (g.traced i))) {ts : List Tr}
    (h : ts.all (trAll (fitsIn k)) = true) : ∀ t ∈ tracedTrs i ts, Tall tenv k (.tr t) := by
  intro t' ht
  obtain ⟨t, hm, rfl⟩ := mem_tracedTrs ht
  have h := List.all_eq_true.1 h t hm
  cases t with
  | fn f => exact .le .fn (Nat.zero_le _)
  | production precs check =>
    simp only [trAll, Bool.and_eq_true, List.all_eq_true] at h
    refine .production ?_ (ih _ h.2)
    intro x hx g' hg
    obtain ⟨⟨gs, rtol⟩, hp, rfl⟩ := mem_tracedPrecs hx
    obtain ⟨g, hm, rfl⟩ := mem_tracedList hg
    exact ih g (h.1 _ hp g hm)

theorem fitsIn_tall {tenv : TEnv} {i : Info} : ∀ k g, fitsIn k g = true → Tall tenv k (.gram (g.traced i)) := by
  intro k
  induction k with
  | zero => intro g h; cases g <;> simp [fitsIn] at h
  | succ k ih =>
    have hl : ∀ {gs : List Gram}, gs.all (fitsIn k) = true → ∀ g ∈ tracedList i gs, Tall tenv k (.gram g) := by
      intro gs h g' hg
      obtain ⟨g, hm, rfl⟩ := mem_tracedList hg
      exact ih g (List.all_eq_true.1 h g hm)
    intro g h
    cases g with
    | prim p => exact .le .prim (by omega)
    | flatGroup gs => exact .flatGroup (hl h)
    | group gs => exact .group (hl h)
    | first gs => exact .first (hl h)
    | lookAhead gs => exact .lookAhead (hl h)
    | lookAheadN gs => exact .lookAheadN (hl h)
    | lookBehind a b gs => exact .lookBehind (hl h)
    | lookBehindN a b gs => exact .lookBehindN (hl h)
    | «repeat» t gs => exact .repeat (hl h)
    | trans g ts =>
      simp only [fitsIn, Bool.and_eq_true] at h
      exact .trans (ih g h.1) (trAll_tall ih h.2)
    | indirect name => simp [fitsIn] at h
    | «match» n cases => simp [fitsIn] at h
    | base cls fn props gs tr => simp [fitsIn] at h

/-! ### With recursion -/

/-- The grammar has at most `k` levels above its uses of `Indirect`, which are for functions in `names`; its terminals do not move
back. -/
def nestsIn (S : Sources) (names : Nat → Prop) : Nat → Gram → Prop
  | _, .indirect name => names name
  | _ + 1, .prim p => Moves S 0 p
  | k + 1, .flatGroup gs => ∀ g ∈ gs, nestsIn S names k g
  | k + 1, .first gs => gs ≠ [] ∧ ∀ g ∈ gs, nestsIn S names k g
  | k + 1, .repeat _ gs => ∀ g ∈ gs, nestsIn S names k g
  | k + 1, .trans g ts => nestsIn S names k g ∧ ts.all (trAll (fitsIn k)) = true
  | _, _ => False

theorem nestsIn_nests {tenv : TEnv} {S : Sources} {rank : Nat → Nat} {eater : Nat → Bool} {R r : Nat} {i : Info} :
    ∀ k g, nestsIn S (fun name => rank name < r) k g → Nests tenv S rank eater R k r false (.gram (g.traced i)) := by
  have hi : ∀ k name, rank name < r → Nests tenv S rank eater R k r false (.gram (Gram.traced i (.indirect name))) := by
    intro k name h
    cases he : eater name with
    | false => exact .le (he ▸ .indirect h) (Nat.zero_le _)
    | true => exact .le (.forget (he ▸ .indirect h)) (Nat.zero_le _)
  intro k
  induction k with
  | zero => intro g h; cases g <;> first | exact hi 0 _ h | simp [nestsIn] at h
  | succ k ih =>
    have hs : ∀ {gs : List Gram}, (∀ g ∈ gs, nestsIn S (fun name => rank name < r) k g) → Nests tenv S rank eater R k r false (.seq (tracedList i gs)) := by
      intro gs h
      induction gs with
      | nil => exact .nil
      | cons g gs ih' => exact .keep (ih g (h g (by simp))) (ih' fun g hg => h g (by simp [hg]))
    have ha : ∀ {gs : List Gram}, (∀ g ∈ gs, nestsIn S (fun name => rank name < r) k g) → Nests tenv S rank eater R k r false (.alts (tracedList i gs)) := by
      intro gs h
      induction gs with
      | nil => exact .forget .none
      | cons g gs ih' => exact .alt (e := false) (e' := false) (ih g (h g (by simp))) (ih' fun g hg => h g (by simp [hg]))
    intro g h
    cases g with
    | prim p => exact .le (.prim (e := false) h) (by omega)
    | flatGroup gs => exact .flatGroup (hs h)
    | first gs =>
      refine .first ?_ (ha h.2)
      obtain ⟨h, -⟩ := h
      cases gs with
      | nil => exact absurd rfl h
      | cons g gs => simp [tracedList]
    | «repeat» t gs => exact .repeat (hs h) (by simp)
    | trans g ts => exact .trans (ih g h.1) (trAll_tall (fun g => fitsIn_tall k g) h.2)
    | indirect name => exact hi _ _ h
    | _ => simp [nestsIn] at h

theorem moves_str {p : Sem} (h : StrTerm (fun _ => True) p) : Moves strings 0 p :=
  (steps_prim (S := strings) (k := 0) fun c hc => strTerm_steps h c hc.2.2).2

/-! ### The examples -/

theorem csv_fits : fitsIn 14 Csv.document = true := rfl

open Lean.Parser.Tactic in
/-- The terminals of the formula grammars. -/
macro "formula_terminals" : tactic => `(tactic|
  (repeat' apply And.intro
   all_goals first
     | rfl
     | exact moves_str .whitespace
     | exact moves_str .number
     | exact moves_str (.charClass _)
     | exact moves_str .wordBoundary
     | exact moves_str .end
     | exact moves_str (.base .start)
     | exact moves_str (.base (.error _))
     | trivial))

theorem nests_simple (names : Nat → Prop) (k : Nat) : nestsIn strings names (k + 12) Formula.simpleExpression ∧
    nestsIn strings names (k + 7) Formula.unaryOperator ∧ nestsIn strings names (k + 7) Formula.binaryOperator ∧
    nestsIn strings names (k + 4) (Gram.erased Formula.sp0) := by
  simp only [Formula.simpleExpression, Formula.unaryOperator, Formula.binaryOperator, Formula.numberG, Formula.sp0,
    Gram.erased, Gram.star, Gram.opt, Extra.integerNumberStr, Extra.plusMinus, Extra.zeroLit, Extra.digits, Extra.digitOr_, Extra.eraseUnderscore, nestsIn, List.forall_mem_cons,
    List.not_mem_nil, false_implies, implies_true, and_true, ne_eq, reduceCtorEq, not_false_eq_true, true_and]
  formula_terminals

section
variable {tenv : TEnv} {i : Info}

theorem nests_grouped {ex : Gram} (h : nestsIn strings (fun _ => 0 < 1) 18 ex) :
    Nests tenv strings (fun _ => 0) (fun _ => false) 1 21 0 false (.gram (Gram.traced i (.flatGroup [
      Gram.erased (.prim (charClass [b! "("])),
      .first [
        .flatGroup [Gram.erased Formula.sp0, ex, Gram.erased (.prim (charClass [b! ")"])), Gram.erased Formula.sp0],
        .prim (errorP "Error in grouped expression")]]))) := by
  have sp : nestsIn strings (fun _ => 0 < 1) 18 (Gram.erased Formula.sp0) := (nests_simple _ 14).2.2.2
  have he : Nests tenv strings (fun _ => 0) (fun _ => false) 1 20 0 true (.gram (Gram.traced i (Gram.erased (.prim (charClass [b! "("]))))) := by
    refine .le (.trans (h := 1) (.prim (e := true) ?_) ?_) (by omega)
    · exact (steps_prim (S := strings) (k := 1) fun c hc => eatsStr_steps (.charClass _ (by decide)) c hc.2.2).2
    · exact trAll_tall (ts := [.fn erase]) (fun g => fitsIn_tall 1 g) rfl
  have hr : nestsIn strings (fun _ => 0 < 1) 20 (.first [
        .flatGroup [Gram.erased Formula.sp0, ex, Gram.erased (.prim (charClass [b! ")"])), Gram.erased Formula.sp0],
        .prim (errorP "Error in grouped expression")]) := by
    refine ⟨by simp, ?_⟩
    simp only [List.forall_mem_cons, List.not_mem_nil, false_implies, implies_true, and_true]
    refine ⟨?_, moves_str (.base (.error _))⟩
    show ∀ g ∈ _, _
    simp only [List.forall_mem_cons, List.not_mem_nil, false_implies, implies_true, and_true]
    exact ⟨sp, h, ⟨moves_str (.charClass _), rfl⟩, sp⟩
  exact .forget (.flatGroup (.eat he (r' := 1) (Nat.le_refl _) (.keep (nestsIn_nests 20 _ hr) .nil)))

theorem nests_program {ex : Gram} (h : nestsIn strings (fun _ => 0 < 1) 18 ex) :
    Nests tenv strings (fun _ => 0) (fun _ => false) 1 19 1 false
      (.gram (Gram.traced i (.flatGroup [.prim startP, Gram.erased Formula.sp0, ex, .prim endS]))) := by
  refine nestsIn_nests 19 _ ?_
  show ∀ g ∈ _, _
  simp only [List.forall_mem_cons, List.not_mem_nil, false_implies, implies_true, and_true]
  exact ⟨moves_str (.base .start), (nests_simple _ 14).2.2.2, h, moves_str .end⟩

theorem nests_inner {ts : List Tr} (h : ts.all (trAll (fitsIn 17)) = true) : nestsIn strings (fun _ => 0 < 1) 18 (.trans Formula.expressionInner ts) := by
  refine ⟨?_, h⟩
  show ∀ g ∈ _, _
  have one : ∀ k, nestsIn strings (fun _ => 0 < 1) k (.indirect 0) := fun k => by cases k <;> exact Nat.zero_lt_one
  simp only [List.forall_mem_cons, List.not_mem_nil, false_implies, implies_true, and_true]
  have un : ∀ k, nestsIn strings (fun _ => 0 < 1) (k + 8) (Gram.star [Formula.unaryOperator]) := by
    intro k
    show ∀ g ∈ _, _
    simp only [List.forall_mem_cons, List.not_mem_nil, false_implies, implies_true, and_true]
    exact (nests_simple _ k).2.1
  refine ⟨un 8, ?_, ?_⟩
  · refine ⟨by simp, ?_⟩
    simp only [List.forall_mem_cons, List.not_mem_nil, false_implies, implies_true, and_true]
    exact ⟨(nests_simple _ 3).1, one _, moves_str (.base (.error _))⟩
  · show ∀ g ∈ _, _
    simp only [List.forall_mem_cons, List.not_mem_nil, false_implies, implies_true, and_true]
    refine ⟨(nests_simple _ 8).2.2.1, ⟨by simp, ?_⟩⟩
    simp only [List.forall_mem_cons, List.not_mem_nil, false_implies, implies_true, and_true]
    refine ⟨?_, moves_str (.base (.error _))⟩
    show ∀ g ∈ _, _
    simp only [List.forall_mem_cons, List.not_mem_nil, false_implies, implies_true, and_true]
    refine ⟨un 5, ⟨by simp, ?_⟩⟩
    simp only [List.forall_mem_cons, List.not_mem_nil, false_implies, implies_true, and_true]
    exact ⟨(nests_simple _ 0).1, one _⟩

end

end Takenoco
