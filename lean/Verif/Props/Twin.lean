import Verif.Lemmas.TwinFormula
import Verif.Props.FormulaBlame
/-
C91: grammars that differ only in their transformers recognise the same texts, and report the same errors at the same
positions. The formula and torpn examples are an instance.
-/
namespace Takenoco
open Spec

/-- **C91.** Twins, started at the same place, come to the same end, unless one of them panics or does not end. -/
theorem C91_alike {I : Ctx → Prop} {env env' : Env} (hI : ∀ c c', OnePlace c c' → I c → I c') (he : ∀ name, Twin I env env' (env name) (env' name))
    {g g' : Gram} (h : Twin I env env' g g') (n m : Nat) {c c' : Ctx} (hc : OnePlace c c') (hm : c.status = .matched) (hi : I c) :
    TwinEnd I (Outcome.of (run env n g c)) (Outcome.of (run env' m g' c')) := by
  by_cases h1 : run env n g c = .timeout
  · rw [h1]; exact .timedOutL
  by_cases h2 : run env' m g' c' = .timeout
  · rw [h2]; exact .timedOutR
  have := twin_run hI he (max n m) g g' h _ _ hc hm hi
  rwa [run_stable (Nat.le_max_left n m) h1, run_stable (Nat.le_max_right n m) h2] at this

/-! ### The examples -/

/-- A run that did not match. -/
def NotMatchedAt (env : Env) (g : Gram) (n : Nat) (s : Bytes) (o : Option Err) (p : LineAndCol) : Prop :=
  ∃ c, run env n g (newStrCtx s) = .ok (c, o) ∧ (o = none → c.status ≠ .matched) ∧ getLineAndCol s c.pos 4 = .ok p

theorem formula_missed {n : Nat} {s : Bytes} {o : Option Err} {p : LineAndCol} :
    Formula.parse n s = .ok (.failed o p) ↔ NotMatchedAt Formula.env Formula.program n s o p := by
  constructor
  · intro h
    cases hr : run Formula.env n Formula.program (newStrCtx s) with
    | timeout => rw [formula_parse_of hr] at h; cases h
    | panic x => rw [formula_parse_of hr] at h; cases h
    | ok oe =>
      obtain ⟨c, e⟩ := oe
      rw [formula_parse_of hr] at h
      simp only [Out.bind, Formula.finish] at h
      cases e with
      | some e =>
        simp only at h
        cases hp : getLineAndCol s c.pos 4 with
        | ok q => rw [hp] at h; cases h; exact ⟨c, hr, by simp, hp⟩
        | panic x => rw [hp] at h; cases h
        | timeout => rw [hp] at h; cases h
      | none =>
        simp only at h
        split at h
        · cases hg : goGet c.stack 0 with
          | ok a =>
            rw [hg] at h
            cases ha : Formula.asInt a.val <;> simp [bind, Out.bind, ha, pure] at h
          | panic x => rw [hg] at h; cases h
          | timeout => rw [hg] at h; cases h
        · rename_i hm
          cases hp : getLineAndCol s c.pos 4 with
          | ok q => rw [hp] at h; cases h; exact ⟨c, hr, fun _ => hm, hp⟩
          | panic x => rw [hp] at h; cases h
          | timeout => rw [hp] at h; cases h
  · rintro ⟨c, hr, hm, hp⟩
    rw [formula_parse_of hr]
    cases o with
    | some e => simp [Out.bind, Formula.finish, hp]
    | none => simp [Out.bind, Formula.finish, hp, hm rfl]

theorem torpn_missed {n : Nat} {s : Bytes} {o : Option Err} {p : LineAndCol} :
    ToRpn.parse n s = .ok (.failed o p) ↔ NotMatchedAt ToRpn.env ToRpn.program n s o p := by
  constructor
  · intro h
    have hno := (C65_error s).1 ⟨n, o, p, h⟩
    cases hr : run ToRpn.env n ToRpn.program (newStrCtx s) with
    | timeout => rw [torpn_parse_of hr] at h; cases h
    | panic x => rw [torpn_parse_of hr] at h; cases h
    | ok oe =>
      obtain ⟨c, e⟩ := oe
      have hd := den_of_run (env := ToRpn.env) (g := ToRpn.program) (n := n) (c := newStrCtx s) (by rw [hr]; simp)
      rw [torpn_parse_of hr] at h
      simp only [Out.bind, ToRpn.finish] at h
      cases e with
      | some e =>
        simp only at h
        cases hp : getLineAndCol s c.pos 4 with
        | ok q => rw [hp] at h; cases h; exact ⟨c, hr, by simp, hp⟩
        | panic x => rw [hp] at h; cases h
        | timeout => rw [hp] at h; cases h
      | none =>
        simp only at h
        split at h
        · rename_i hm
          have := program_takes rpn_rules (X := fun _ _ => True) (fun _ _ _ _ => trivial) (fun _ _ _ _ _ _ => trivial) s.length _ _ _ (newStrCtx_at s) (Nat.le_refl _)
          rw [show den (envOf _) (programOf _) (newStrCtx s) = .ok (c, none) from hd.trans hr] at this
          simp only [Outcome.of, hm] at this
          obtain ⟨w, rest, rfl, h1⟩ := this
          obtain ⟨l, _, rfl, e, _, h2, _⟩ := h1.stack
          exact absurd ⟨e, by simpa using h2⟩ hno
        · rename_i hm
          cases hp : getLineAndCol s c.pos 4 with
          | ok q => rw [hp] at h; cases h; exact ⟨c, hr, fun _ => hm, hp⟩
          | panic x => rw [hp] at h; cases h
          | timeout => rw [hp] at h; cases h
  · rintro ⟨c, hr, hm, hp⟩
    rw [torpn_parse_of hr]
    cases o with
    | some e => simp [Out.bind, ToRpn.finish, hp]
    | none => simp [Out.bind, ToRpn.finish, hp, hm rfl]

/-- What does not match with one set of rules does not match with the other. -/
theorem missed_alike {D D' : Type} {tr tr' : Tr} {Is : Ast → Tok D → Prop} {num : Int64 → D} {neg : D → D} {bin : BinOp → D → D → Option D}
    {Is' : Ast → Tok D' → Prop} {num' : Int64 → D'} {neg' : D' → D'} {bin' : BinOp → D' → D' → Option D'}
    (hR : RulesFor tr Is num neg bin) (hR' : RulesFor tr' Is' num' neg' bin') {n m : Nat} {s : Bytes} {o : Option Err} {p : LineAndCol}
    (h : NotMatchedAt (envOf tr) (programOf tr) n s o p) {r : PRes} (hr : run (envOf tr') m (programOf tr') (newStrCtx s) = .ok r) :
    NotMatchedAt (envOf tr') (programOf tr') m s o p := by
  obtain ⟨c, h1, h2, h3⟩ := h
  obtain ⟨c', e'⟩ := r
  have ht := C91_alike inStr_ofPlace (fun _ => twin_grouped hR hR') (twin_program hR hR') n m (c := newStrCtx s) (c' := newStrCtx s)
    ⟨rfl, rfl, rfl, rfl, rfl⟩ rfl (Nat.zero_le _)
  have put : ∀ {tr : Tr} {n : Nat} {c : Ctx}, run (envOf tr) n (programOf tr) (newStrCtx s) = .ok (c, none) → c.status = .unmatched → c.pos = 0 := by
    intro tr n c hr hs
    exact flat_stays (gs := [.prim startP, Gram.erased Formula.sp0, expressionOf tr, .prim endS]) _ _ ((den_of_run (n := n) (by
      intro h0; have := h0.symm.trans hr; cases this)).trans hr) hs
  rw [h1, hr] at ht
  refine ⟨c', ?_⟩
  cases o with
  | some e =>
    cases e' with
    | some e' =>
      simp only [Outcome.of] at ht
      cases ht with
      | failed h => exact ⟨hr, by simp, by rw [show c'.pos = c.pos from h]; exact h3⟩
    | none => cases hs' : c'.status <;> simp only [Outcome.of, hs'] at ht <;> cases ht
  | none =>
    have h2 := h2 rfl
    cases e' with
    | some e' => cases hs : c.status <;> simp only [Outcome.of, hs] at ht <;> cases ht
    | none =>
      cases hs : c.status with
      | matched => exact absurd hs h2
      | unmatched =>
        cases hs' : c'.status with
        | unmatched => exact ⟨hr, by simp, by rw [put hr hs']; rw [put h1 hs] at h3; exact h3⟩
        | matched => simp only [Outcome.of, hs, hs'] at ht; cases ht
        | error => simp only [Outcome.of, hs, hs'] at ht; cases ht
      | error =>
        cases hs' : c'.status with
        | unmatched => simp only [Outcome.of, hs, hs'] at ht; cases ht
        | matched => simp only [Outcome.of, hs, hs'] at ht; cases ht
        | error =>
          simp only [Outcome.of, hs, hs'] at ht
          cases ht with
          | failed h => exact ⟨hr, by simp, by rw [show c'.pos = c.pos from h]; exact h3⟩

/-- **C91.** What `formula.Parse` refuses, `torpn.Parse` refuses, with the same error at the same position. -/
theorem C91_formula (s : Bytes) (n : Nat) (o : Option Err) (p : LineAndCol) (h : Formula.parse n s = .ok (.failed o p)) :
    ∃ N, ∀ m, N ≤ m → ToRpn.parse m s = .ok (.failed o p) := by
  obtain ⟨N, r, hN⟩ := C55_torpn_total s
  refine ⟨N, fun m hm => ?_⟩
  have h' := hN m hm
  cases hr : run ToRpn.env m ToRpn.program (newStrCtx s) with
  | timeout => rw [torpn_parse_of hr] at h'; cases h'
  | panic x => rw [torpn_parse_of hr] at h'; cases h'
  | ok oe => exact torpn_missed.2 (missed_alike formula_rules rpn_rules (formula_missed.1 h) hr)

/-- **C91.** What `torpn.Parse` refuses, `formula.Parse` refuses, with the same error at the same position, unless it panics
before because a part of the text that it has already evaluated divides by zero. -/
theorem C91_torpn (s : Bytes) (n : Nat) (o : Option Err) (p : LineAndCol) (h : ToRpn.parse n s = .ok (.failed o p)) :
    ∃ N, (∀ m, N ≤ m → Formula.parse m s = .ok (.failed o p)) ∨ ∀ m, N ≤ m → Formula.parse m s = .panic .divZero := by
  obtain ⟨N, ⟨r, hN⟩ | hN⟩ := C50_formula_total s
  · refine ⟨N, .inl fun m hm => ?_⟩
    have h' := hN m hm
    cases hr : run Formula.env m Formula.program (newStrCtx s) with
    | timeout => rw [formula_parse_of hr] at h'; cases h'
    | panic x => rw [formula_parse_of hr] at h'; cases h'
    | ok oe => exact formula_missed.2 (missed_alike rpn_rules formula_rules (torpn_missed.1 h) hr)
  · exact ⟨N, .inr hN⟩

/-! ### Examples -/

/-- The error and the position it is reported at. -/
private def report {α : Type} : Out (Formula.ParseRes α) → Option (Option Err × Nat)
  | .ok (.failed o p) => some (o, p.position)
  | _ => none

/-- The hypotheses of `C91_formula` and `C91_torpn` are met, with both kinds of error. -/
example : report (Formula.parse 99 (b! "1 + (2 ; 3)")) = some (some (.msg "Error in grouped expression"), 5) ∧
    report (ToRpn.parse 99 (b! "1 + (2 ; 3)")) = some (some (.msg "Error in grouped expression"), 5) := by constructor <;> cbv
example : report (Formula.parse 99 (b! "1 2")) = some (none, 0) ∧ report (ToRpn.parse 99 (b! "1 2")) = some (none, 0) := by constructor <;> cbv

/-- The second case of `C91_torpn` occurs. -/
example : report (ToRpn.parse 99 (b! "(1/0)+")) = some (some (.msg "Error in the expression after the binary operator"), 6) ∧
    Formula.parse 99 (b! "(1/0)+") = .panic .divZero := by constructor <;> cbv

/-- `First(Trans(FlatGroup(Seq("a"), Seq("b")), ChangeClassName("x")), Error("no"))` and the same with `Erase`: the first ends with two ASTs, the second with none. -/
private def joined (t : TSem) : Gram := .first [.trans (.flatGroup [.prim (seqS (b! "a")), .prim (seqS (b! "b"))]) [.fn t], .prim (errorP "no")]

private theorem quiet_erase {I : Ctx → Prop} {g : Gram} : NeverRefuses I noEnv g [.fn erase] := by
  intro n m c o _ _ _ d l e h
  cases m with
  | zero => simp [runTr, applyTrs] at h
  | succ m => simp [runTr, applyTrs, erase] at h

private theorem quiet_rename {I : Ctx → Prop} {g : Gram} : NeverRefuses I noEnv g [.fn (changeClassName "x")] := by
  intro n m c o _ _ _ d l e h
  cases m with
  | zero => simp [runTr, applyTrs] at h
  | succ m =>
    simp only [List.map, runTr, applyTrs, changeClassName, rewriteHead] at h
    cases hl : o.stack.drop c.stack.length <;> rw [hl] at h <;> cases h

private theorem twin_local {p : Sem} (hp : LocalGram (.prim p)) : Twin (fun _ => True) noEnv noEnv (.prim p) (.prim p) :=
  .same fun n c c' h hm _ => by
    have h := C56_same_end (env := noEnv) (fun _ => by localgram [noEnv]) hp n (c := c) (c' := c') ⟨h.str, h.slice, h.pos, h.len, h.status⟩
    generalize Outcome.of (run noEnv n (.prim p) c) = x at *
    generalize Outcome.of (run noEnv n (.prim p) c') = y at *
    cases h with
    | matched new h => exact .matched ⟨h.str, h.slice, h.pos, h.len, h.status⟩ trivial
    | unmatched => exact .unmatched
    | failed h => exact .failed h
    | panicked => exact .panickedL
    | timedOut => exact .timedOutL

example : Twin (fun _ => True) noEnv noEnv (joined (changeClassName "x")) (joined erase) :=
  .first (by simp) (.cons (.trans (.flatGroup (.cons (twin_local (by localgram [joined])) (.cons (twin_local (by localgram [joined])) .nil)))
    quiet_rename quiet_erase) (.cons (twin_local (by localgram [joined])) .nil))

example : (∃ o, Outcome.of (run noEnv 9 (joined (changeClassName "x")) (newStrCtx (b! "ab"))) = .matched o ∧ o.pos = 2 ∧ o.stack.length = 2) ∧
    ∃ o, Outcome.of (run noEnv 9 (joined erase) (newStrCtx (b! "ab"))) = .matched o ∧ o.pos = 2 ∧ o.stack.length = 0 :=
  ⟨⟨_, by cbv, by cbv, by cbv⟩, ⟨_, by cbv, by cbv, by cbv⟩⟩

/-- **C91**, the condition is needed: with a transformer that refuses, the same text is an error. -/
theorem C91_refusing : ∃ t : TSem, (∃ o, Outcome.of (run noEnv 9 (joined erase) (newStrCtx (b! "ab"))) = .matched o) ∧
    ∃ o e, Outcome.of (run noEnv 9 (joined t) (newStrCtx (b! "ab"))) = .failed o e :=
  ⟨fun _ _ => .ok ([], some (.msg "no")), ⟨_, by cbv⟩, _, _, by cbv⟩

#print axioms C91_alike
#print axioms C91_formula
#print axioms C91_torpn
#print axioms C91_refusing

end Takenoco
