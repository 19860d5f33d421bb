import Verif.Lemmas.FormulaBlame
import Verif.Props.FormulaExact
/-
C72: where the formula and torpn examples report errors.
-/
namespace Takenoco
open Spec

theorem program_report {D : Type} {tr : Tr} {Is : Ast → Tok D → Prop} {num : Int64 → D} {neg : D → D} {bin : BinOp → D → D → Option D}
    (hR : RulesFor tr Is num neg bin) {n : Nat} {s : Bytes} {o : Ctx} {e : Option Err} (h : run (envOf tr) n (programOf tr) (newStrCtx s) = .ok (o, e)) :
    (e = none → o.status ≠ .matched → o.pos = 0 ∧ ∃ u v x, s = u ++ v ∧ v ≠ [] ∧ Spelled u x) ∧
    ∀ e', e = some e' → o.pos ≤ s.length ∧ Blamed e' (s.take o.pos) := by
  have hd : den (envOf tr) (programOf tr) (newStrCtx s) = .ok (o, e) := by rw [den_of_run (n := n) (by rw [h]; simp), h]
  have hb := program_blames hR (X := fun _ _ => True) (fun _ _ _ _ => trivial) (fun _ _ _ _ _ _ => trivial) s.length _ _ _ (newStrCtx_at s) (Nat.le_refl _)
  rw [hd] at hb
  refine ⟨fun he hs => ?_, fun e' he => ?_⟩
  · subst he
    cases hst : o.status with
    | matched => exact absurd hst hs
    | unmatched =>
      have hu : Outcome.of (den (envOf tr) (programOf tr) (newStrCtx s)) = .unmatched := by rw [hd]; simp [Outcome.of, hst]
      exact ⟨flat_stays _ _ hd hst, program_unmatched hR (newStrCtx_at s) hu⟩
    | error =>
      obtain ⟨_, _, _, _, _, h, _⟩ := hb o none (by simp [Outcome.of, hst])
      cases h
  · subst he
    obtain ⟨u, v, rfl, h2, e'', h3, h4⟩ := hb { o with status := .error } (some e') rfl
    cases h3
    simp only [List.length_nil, Nat.zero_add] at h2
    rw [h2]
    exact ⟨by simp, by simpa using h4⟩

/-- The error is one that the specification allows at the reported position. -/
def Reported (s : Bytes) (o : Option Err) (p : LineAndCol) : Prop :=
  p.position ≤ s.length ∧ getLineAndCol s p.position 4 = .ok p ∧
  (∀ e, o = some e → Blamed e (s.take p.position)) ∧
  (o = none → p.line = 1 ∧ p.col = 1 ∧ p.position = 0 ∧ ∃ u v x, s = u ++ v ∧ v ≠ [] ∧ Spelled u x)

theorem position_of {s : Bytes} {k : Nat} {p : LineAndCol} (h : getLineAndCol s k 4 = .ok p) : k ≤ s.length ∧ p.position = k ∧ (k = 0 → p.line = 1 ∧ p.col = 1) := by
  unfold getLineAndCol at h
  split at h
  · cases h
  · rename_i hk
    simp only [show ¬ ((4 : Int) < 0) by decide, if_false] at h
    cases h
    refine ⟨by omega, rfl, fun h => ?_⟩
    subst h
    exact ⟨rfl, rfl⟩

theorem reported_of {D : Type} {tr : Tr} {Is : Ast → Tok D → Prop} {num : Int64 → D} {neg : D → D} {bin : BinOp → D → D → Option D}
    (hR : RulesFor tr Is num neg bin) {n : Nat} {s : Bytes} {o : Ctx} {e : Option Err} {p : LineAndCol}
    (h : run (envOf tr) n (programOf tr) (newStrCtx s) = .ok (o, e)) (hne : e = none → o.status ≠ .matched) (hp : getLineAndCol s o.pos 4 = .ok p) :
    Reported s e p := by
  obtain ⟨h1, h2⟩ := program_report hR h
  obtain ⟨h3, h4, h5⟩ := position_of hp
  refine ⟨by omega, by rw [h4]; exact hp, fun e' he => by rw [h4]; exact (h2 e' he).2, fun he => ?_⟩
  obtain ⟨h6, h7⟩ := h1 he (hne he)
  exact ⟨(h5 h6).1, (h5 h6).2, by omega, h7⟩

/-- The errors of `formula.Parse`. -/
theorem C72_formula (s : Bytes) (n : Nat) (o : Option Err) (p : LineAndCol) (h : Formula.parse n s = .ok (.failed o p)) : Reported s o p := by
  cases hr : run Formula.env n Formula.program (newStrCtx s) with
  | timeout => rw [formula_parse_of hr] at h; cases h
  | panic x => rw [formula_parse_of hr] at h; cases h
  | ok oe =>
    obtain ⟨c, e⟩ := oe
    rw [formula_parse_of hr] at h
    simp only [Out.bind, Formula.finish] at h
    cases e with
    | some e =>
      simp only at h
      cases hp : getLineAndCol s c.pos 4 with
      | ok q => rw [hp] at h; cases h; exact reported_of formula_rules hr (by simp) hp
      | panic x => rw [hp] at h; cases h
      | timeout => rw [hp] at h; cases h
    | none =>
      simp only at h
      split at h
      · cases hg : goGet c.stack 0 with
        | ok a =>
          rw [hg] at h
          cases ha : Formula.asInt a.val <;> simp [bind, Out.bind, ha, pure] at h
        | panic x => rw [hg] at h; cases h
        | timeout => rw [hg] at h; cases h
      · rename_i hm
        cases hp : getLineAndCol s c.pos 4 with
        | ok q => rw [hp] at h; cases h; exact reported_of formula_rules hr (fun _ => hm) hp
        | panic x => rw [hp] at h; cases h
        | timeout => rw [hp] at h; cases h

/-- The errors of `torpn.Parse`. -/
theorem C72_torpn (s : Bytes) (n : Nat) (o : Option Err) (p : LineAndCol) (h : ToRpn.parse n s = .ok (.failed o p)) : Reported s o p := by
  have hno := (C65_error s).1 ⟨n, o, p, h⟩
  cases hr : run ToRpn.env n ToRpn.program (newStrCtx s) with
  | timeout => rw [torpn_parse_of hr] at h; cases h
  | panic x => rw [torpn_parse_of hr] at h; cases h
  | ok oe =>
    obtain ⟨c, e⟩ := oe
    have hd := den_of_run (env := ToRpn.env) (g := ToRpn.program) (n := n) (c := newStrCtx s) (by rw [hr]; simp)
    rw [torpn_parse_of hr] at h
    simp only [Out.bind, ToRpn.finish] at h
    cases e with
    | some e =>
      simp only at h
      cases hp : getLineAndCol s c.pos 4 with
      | ok q => rw [hp] at h; cases h; exact reported_of rpn_rules hr (by simp) hp
      | panic x => rw [hp] at h; cases h
      | timeout => rw [hp] at h; cases h
    | none =>
      simp only at h
      split at h
      · rename_i hm
        have := program_takes rpn_rules (X := fun _ _ => True) (fun _ _ _ _ => trivial) (fun _ _ _ _ _ _ => trivial) s.length _ _ _ (newStrCtx_at s) (Nat.le_refl _)
        rw [show den (envOf _) (programOf _) (newStrCtx s) = .ok (c, none) from hd.trans hr] at this
        simp only [Outcome.of, hm] at this
        obtain ⟨w, rest, rfl, h1⟩ := this
        obtain ⟨l, _, rfl, e, _, h2, _⟩ := h1.stack
        exact absurd ⟨e, by simpa using h2⟩ hno
      · rename_i hm
        cases hp : getLineAndCol s c.pos 4 with
        | ok q => rw [hp] at h; cases h; exact reported_of rpn_rules hr (fun _ => hm) hp
        | panic x => rw [hp] at h; cases h
        | timeout => rw [hp] at h; cases h

/-! ### Examples -/

/-- The error and the position it is reported at. -/
private def report {α : Type} : Out (Formula.ParseRes α) → Option (Option Err × Nat)
  | .ok (.failed o p) => some (o, p.position)
  | _ => none

example : report (Formula.parse 99 (b! "1 + (2 - ")) = some (some (.msg "Error in the expression after the binary operator"), 9) := by cbv
example : report (Formula.parse 99 (b! "1 + ( - )")) = some (some (.msg "Value required"), 8) := by cbv
example : report (Formula.parse 99 (b! "1 + (2 ; 3)")) = some (some (.msg "Error in grouped expression"), 5) := by cbv
example : report (Formula.parse 99 (b! "1 + 9_223_372_036_854_775_808 + 2")) = some (some (.strconv (b! "9223372036854775808") .range), 30) := by cbv
example : report (Formula.parse 99 (b! "1 + 2\n  ; 3")) = some (none, 0) := by cbv
example : report (ToRpn.parse 99 (b! "1 + 2\n  ; 3")) = some (none, 0) := by cbv
example : report (ToRpn.parse 99 (b! "(1 * 2")) = some (some (.msg "Error in grouped expression"), 1) := by cbv

#print axioms C72_formula
#print axioms C72_torpn

end Takenoco
