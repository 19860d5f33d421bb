import Verif.Lemmas.BigStep
import Verif.Lemmas.Eval
import Verif.Model.StrParsers
/-
Property C12: parsing is a function of grammar and context.
-/
namespace Takenoco
open Spec

/-! ### C12 Fuel independence -/

/-- C12. Two completed runs of the same grammar on the same context have the same result, however far the
recursion and the loops were allowed to be unrolled. -/
theorem C12_fuel_independent (env : Env) (g : Gram) (c : Ctx) (n m : Nat)
    (hn : run env n g c ≠ .timeout) (hm : run env m g c ≠ .timeout) : run env n g c = run env m g c := by
  rcases Nat.le_total n m with h | h
  · exact (run_stable h hn).symm
  · exact run_stable h hm

/-- C12. A completed run stays as it is when more fuel is given. -/
theorem C12_more_fuel (env : Env) (g : Gram) (c : Ctx) (n m : Nat) (h : n ≤ m)
    (hn : run env n g c ≠ .timeout) : run env m g c = run env n g c := run_stable h hn

/-- C12. The same for transformers, `ProductionRule` included. -/
theorem C12_transformer_fuel_independent (env : Env) (t : Tr) (c : Ctx) (asts : List Ast) (n m : Nat)
    (hn : runTr env n t c asts ≠ .timeout) (hm : runTr env m t c asts ≠ .timeout) :
    runTr env n t c asts = runTr env m t c asts := by
  rcases Nat.le_total n m with h | h
  · exact (runTr_stable h hn).symm
  · exact runTr_stable h hm

/-! ### C12 The engine and the big-step specification agree -/

/-- C12. What the specification derives, the engine computes, from some fuel on. -/
theorem C12_spec_to_engine (env : Env) (g : Gram) (c : Ctx) (r : Outcome) (hc : c.status = .matched)
    (h : Parses env (.gram g) c r) : ∃ N, ∀ n, N ≤ n → Outcome.of (run env n g c) = r := by
  have hs := parses_sound h hc
  have h1 : Outcome.of (den env g c) = r := hs.1
  rcases den_lim env g c with hd | ⟨N, hN⟩
  · rw [hd] at h1; exact absurd h1.symm hs.2
  · exact ⟨N, fun n hn => by have := hN n hn; simp only at this; rw [this]; exact h1⟩

/-- C12. What the engine computes in a completed run, the specification derives; for grammars without
`ProductionRule` and direct calls of `BaseParser`. -/
theorem C12_engine_to_spec (env : Env) (henv : ∀ i, Plain (env i)) (g : Gram) (hg : Plain g) (c : Ctx)
    (hc : c.status = .matched) (n : Nat) (h : run env n g c ≠ .timeout) :
    Parses env (.gram g) c (Outcome.of (run env n g c)) := by
  refine parses_complete henv n g hg c _ hc rfl ?_
  cases hr : run env n g c with
  | panic p => simp [Outcome.of]
  | timeout => exact absurd hr h
  | ok oe =>
    obtain ⟨o, e⟩ := oe
    rw [Outcome.of_ok_fix]
    split <;> simp

/-- C12. The specification allows at most one outcome. -/
theorem C12_spec_deterministic (env : Env) (g : Gram) (c : Ctx) (r r' : Outcome) (hc : c.status = .matched)
    (h : Parses env (.gram g) c r) (h' : Parses env (.gram g) c r') : r = r' :=
  (parses_sound h hc).1.symm.trans (parses_sound h' hc).1

/-- C12. A grammar runs forever exactly when the specification gives it no outcome. -/
theorem C12_divergence (env : Env) (henv : ∀ i, Plain (env i)) (g : Gram) (hg : Plain g) (c : Ctx)
    (hc : c.status = .matched) :
    (∀ n, run env n g c = .timeout) ↔ ¬ ∃ r, Parses env (.gram g) c r := by
  constructor
  · rintro h ⟨r, hr⟩
    obtain ⟨N, hN⟩ := C12_spec_to_engine env g c r hc hr
    have := hN N (Nat.le_refl _)
    rw [h N] at this
    exact (parses_sound hr hc).2 this.symm
  · intro h n
    by_cases hn : run env n g c = .timeout
    · exact hn
    · exact absurd ⟨_, C12_engine_to_spec env henv g hg c hc n hn⟩ h

/-- Balanced parentheses, `S = '(' S ')' | ''`, as a recursive grammar. -/
private def parens : Env := fun _ =>
  .first [.flatGroup [.prim (seqS b!"("), .indirect 0, .prim (seqS b!")")], .prim (zeroP [])]

private theorem parens_plain : ∀ i, Plain (parens i) := fun _ => by
  refine .first fun g hg => ?_
  simp only [List.mem_cons, List.not_mem_nil, or_false] at hg
  rcases hg with rfl | rfl
  · refine .flatGroup fun g hg => ?_
    simp only [List.mem_cons, List.not_mem_nil, or_false] at hg
    rcases hg with rfl | rfl | rfl
    · exact .prim
    · exact .indirect
    · exact .prim
  · exact .prim

/-- The specification derives that the recursive grammar matches the text of two nested pairs. -/
example : ∃ o, Parses parens (.gram (parens 0)) (newStrCtx b!"(())") (.matched o) ∧ o.pos = 4 ∧
    o.stack.length = 4 := by
  have he : matchedWith (fun o => (o.pos, o.stack.length)) (run parens 12 (parens 0) (newStrCtx b!"(())")) =
      some (4, 4) := by cbv
  obtain ⟨o, ho, hp⟩ := matchedWith_some he
  have h := C12_engine_to_spec parens parens_plain (parens 0) (parens_plain 0) (newStrCtx b!"(())") rfl 12
    (by intro h; rw [h] at ho; cases ho)
  rw [ho] at h
  exact ⟨o, h, congrArg (·.1) hp, congrArg (·.2) hp⟩

/-- Left recursion `S = S` has no outcome and runs forever. -/
example : ∀ n, run (fun _ => .indirect 0) n (.indirect 0) (newStrCtx b!"x") = .timeout := by
  intro n
  induction n with
  | zero => rfl
  | succ n ih => simp only [run, indirect, lightParser]; rw [ih]

/-! ### C12 The fuel-free meaning, for all grammars -/

/-- Equations that determine the meaning of grammars and transformers: every constructor of the grammar
is the combinator of the same name over the meanings of its children. A loop without bound has the
result that it has with enough iterations. -/
structure Solution (env : Env) (m : Gram → Sem) (mt : Tr → TSem) : Prop where
  prim : ∀ p, m (.prim p) = p
  flatGroup : ∀ gs, m (.flatGroup gs) = Takenoco.flatGroup (gs.map m)
  group : ∀ gs, m (.group gs) = Takenoco.group (gs.map m)
  first : ∀ gs, m (.first gs) = Takenoco.first (gs.map m)
  lookAhead : ∀ gs, m (.lookAhead gs) = Takenoco.lookAhead (gs.map m)
  lookAheadN : ∀ gs, m (.lookAheadN gs) = Takenoco.lookAheadN (gs.map m)
  lookBehind : ∀ a b gs, m (.lookBehind a b gs) = Takenoco.lookBehind a b (gs.map m)
  lookBehindN : ∀ a b gs, m (.lookBehindN a b gs) = Takenoco.lookBehindN a b (gs.map m)
  trans : ∀ g ts, m (.trans g ts) = Takenoco.trans (m g) (ts.map mt)
  indirect : ∀ i, m (.indirect i) = Takenoco.indirect (m (env i))
  «match» : ∀ k cases, m (.match k cases) = matchP k (cases.map fun x => (x.1, x.2.map mt))
  fn : ∀ f, mt (.fn f) = f
  «repeat» : ∀ t gs c fuel, repeatP fuel t (gs.map m) c ≠ .timeout →
    m (.repeat t gs) c = repeatP fuel t (gs.map m) c
  base : ∀ cls fn props gs tr c fuel,
    baseParser fuel cls fn props (gs.map m) (tr.map (·.map mt)) c ≠ .timeout →
    m (.base cls fn props gs tr) c = baseParser fuel cls fn props (gs.map m) (tr.map (·.map mt)) c
  production : ∀ precs check c asts fuel,
    productionRule fuel (precs.map fun p => (p.1.map m, p.2)) (m check) c asts ≠ .timeout →
    mt (.production precs check) c asts =
      productionRule fuel (precs.map fun p => (p.1.map m, p.2)) (m check) c asts

/-- C12. The meaning of grammars satisfies the equations. -/
theorem C12_meaning_solves (env : Env) : Solution env (den env) (denTr env) where
  prim := den_prim env
  flatGroup := den_flatGroup env
  group := den_group env
  first := den_first env
  lookAhead := den_lookAhead env
  lookAheadN := den_lookAheadN env
  lookBehind := den_lookBehind env
  lookBehindN := den_lookBehindN env
  trans := den_trans env
  indirect := den_indirect env
  «match» := den_match env
  fn := denTr_fn env
  «repeat» := den_repeat_of env
  base := den_base_of env
  production := denTr_production_of env

/-- C12. Every solution of the equations agrees with every completed run: the engine computes the least
solution. -/
theorem C12_meaning_least (env : Env) (m : Gram → Sem) (mt : Tr → TSem) (h : Solution env m mt) :
    (∀ g c n, run env n g c ≠ .timeout → m g c = run env n g c) ∧
    (∀ t c asts n, runTr env n t c asts ≠ .timeout → mt t c asts = runTr env n t c asts) := by
  have key : ∀ n, (∀ g, LeS (run env n g) (m g)) ∧ (∀ t, LeT (runTr env n t) (mt t)) := by
    intro n
    induction n with
    | zero => exact ⟨fun g c => .inl rfl, fun t c l => .inl rfl⟩
    | succ n ih =>
      obtain ⟨ihg, iht⟩ := ih
      have L : ∀ gs : List Gram, LeL LeS (gs.map (run env n)) (gs.map m) := fun gs => LeL.map _ _ gs ihg
      have LT : ∀ ts : List Tr, LeL LeT (ts.map (runTr env n)) (ts.map mt) := fun ts => LeL.map _ _ ts iht
      have up : ∀ {α : Type} {a b x : Out α}, a.le b → (b ≠ .timeout → x = b) → a.le x := by
        intro α a b x hab hx
        rcases hab with hab | hab
        · exact .inl hab
        · by_cases hb : b = .timeout
          · exact .inl (hab.trans hb)
          · exact .inr (hab.trans (hx hb).symm)
      refine ⟨fun g => ?_, fun t => ?_⟩
      · cases g with
        | prim p => rw [h.prim]; exact fun c => .refl _
        | flatGroup gs => rw [h.flatGroup]; exact fun c => baseParser_le (Nat.le_refl _) (L gs) .none c
        | group gs =>
          rw [h.group]
          exact fun c => baseParser_le (Nat.le_refl _) (L gs) (.some (LeL.refl (fun _ _ _ => .refl _) _)) c
        | first gs => rw [h.first]; exact fun c => baseParser_le (Nat.le_refl _) (L gs) .none c
        | lookAhead gs => rw [h.lookAhead]; exact fun c => baseParser_le (Nat.le_refl _) (L gs) .none c
        | lookAheadN gs => rw [h.lookAheadN]; exact fun c => baseParser_le (Nat.le_refl _) (L gs) .none c
        | lookBehind a b gs => rw [h.lookBehind]; exact fun c => lookBehindBase_le (L gs) c
        | lookBehindN a b gs => rw [h.lookBehindN]; exact fun c => lookBehindBase_le (L gs) c
        | «repeat» t gs =>
          exact fun c => up (baseParser_le (Nat.le_refl _) (L gs) .none c) (h.repeat t gs c n)
        | trans g ts =>
          rw [h.trans]
          exact fun c => baseParser_le (Nat.le_refl _) (.cons (ihg g) .nil) (variadic_le (LT ts)) c
        | indirect i => rw [h.indirect]; exact fun c => lightParser_le (ihg (env i)) c
        | «match» k cases =>
          rw [h.match]
          have hle : LeL LeCase (cases.map fun x => (x.1, x.2.map (runTr env n)))
              (cases.map fun x => (x.1, x.2.map mt)) := LeL.map _ _ cases fun x => ⟨rfl, LT x.2⟩
          exact fun c => lightParser_le (matchFn_le hle) c
        | base cls fn props gs tr =>
          refine fun c => up (baseParser_le (Nat.le_refl _) (L gs) ?_ c) (h.base cls fn props gs tr c n)
          cases tr with
          | none => exact .none
          | some ts => exact .some (LT ts)
      · cases t with
        | fn f => rw [h.fn]; exact fun c l => .refl _
        | production precs check =>
          refine fun c l => up ?_ (h.production precs check c l n)
          have hle : LeL LePrec (precs.map fun p => (p.1.map (run env n), p.2)) (precs.map fun p => (p.1.map m, p.2)) :=
            LeL.map _ _ precs fun p => ⟨L p.1, rfl⟩
          exact productionLoop_le hle (ihg check) c.tag n n (Nat.le_refl _) l
  exact ⟨fun g c n hn => ((key n).1 g c).elim (fun h => absurd h hn) Eq.symm,
    fun t c l n hn => ((key n).2 t c l).elim (fun h => absurd h hn) Eq.symm⟩

end Takenoco
