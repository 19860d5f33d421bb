import Verif.Lemmas.CallsBelow
import Verif.Lemmas.FormulaText
import Verif.Lemmas.TraceAll
import Verif.Spec.SumText
/-
The calls that the parsers of the formula and torpn examples make for sums.
-/
namespace Takenoco
open Spec Trace Formula

theorem plusOnes_length (k : Nat) : (plusOnes k).length = 2 * k := by
  induction k with
  | zero => rfl
  | succ k ih => simp [plusOnes, ih]; omega

theorem one_digits : DigitsText [0x31] 1 :=
  ⟨⟨0x31, [], rfl, rfl⟩, rfl, .digit (base := 10) (b := 0x31) (v := 1) ⟨by decide, .inl rfl⟩⟩

theorem plusOnes_after (k : Nat) : After (plusOnes k) := by
  cases k with
  | zero => exact Follow.after (.inl rfl)
  | succ k => exact op_after .add _

section
variable {D : Type} {tr : Tr} {Is : Ast → Tok D → Prop} {num : Int64 → D} {neg : D → D} {bin : BinOp → D → D → Option D}

theorem oneText_hits (hR : RulesFor tr Is num neg bin) (k : Nat) (pre : Bytes) :
    Hits (den (envOf tr) numberG) pre [0x31] (plusOnes k) (fun l => ∃ a, l = [a] ∧ Is a (.operand (num 1))) := by
  have := number_hits (env := envOf tr) (s := plusOnes k) (.none (n := 1) (by decide)) one_digits ⟨[], by simp, rfl⟩ (plusOnes_after k).1 (plusOnes_after k).2 pre
  refine this.mono fun l hl => ?_
  obtain ⟨a, rfl, ha⟩ := hl
  exact ⟨a, rfl, hR.num_tok a _ ha⟩

theorem ones_iter (hR : RulesFor tr Is num neg bin) (k : Nat) : ∀ pre, ∃ Q, Iter [den (envOf tr) binaryOperator, den (envOf tr) numberG] k pre (plusOnes k) [] Q ∧
    ∀ l, Q l → Toks Is l (sumToks (List.replicate k (num 1))) := by
  induction k with
  | zero => exact fun pre => ⟨_, .stop (.head (binary_misses (.inl rfl) pre)), fun l hl => by rw [hl]; exact .nil⟩
  | succ k ih =>
    intro pre
    obtain ⟨Q, h1, h2⟩ := ih (pre ++ [0x2b, 0x31])
    have hop := binary_hits (env := envOf tr) (op := .add) (b := []) (s := 0x31 :: plusOnes k) ⟨[], by simp, rfl⟩
      (Opens.notWhite ⟨0x31, plusOnes k, rfl, .inl rfl⟩) pre
    have hn := oneText_hits hR k (pre ++ [0x2b])
    refine ⟨_, Iter.next (w1 := [0x2b] ++ [0x31]) (w2 := plusOnes k) (.cons (by rw [List.append_nil]; exact hop) (.single (by simpa using hn))) h1, fun l hl => ?_⟩
    obtain ⟨x, y, rfl, ⟨x1, x2, rfl, ⟨a, rfl, ha⟩, ⟨a', rfl, ha'⟩⟩, hy⟩ := hl
    exact .cons (hR.bin_tok a .add ha) (.cons ha' (h2 y hy))

/-- The operands and operators of the text. -/
theorem ones_hits (hR : RulesFor tr Is num neg bin) (k : Nat) (pre : Bytes) :
    Hits (den (envOf tr) expressionInner) pre (onesText k) [] (fun l => Toks Is l (.operand (num 1) :: sumToks (List.replicate k (num 1)))) := by
  obtain ⟨Q, h1, h2⟩ := ones_iter hR k (pre ++ [0x31])
  have hs : Hits (den (envOf tr) simpleExpression) pre ([0x31] ++ plusOnes k) [] _ :=
    flat_hits (env := envOf tr) (gs := [numberG, Gram.star [binaryOperator, numberG]])
      (.cons (by simpa using oneText_hits hR k pre) (.single (star_hits (gs := [binaryOperator, numberG]) h1)))
  have h0 : Hits (den (envOf tr) (Gram.star [unaryOperator])) pre [] (onesText k) (· = []) :=
    star_hits (gs := [unaryOperator]) (.stop (.head (unary_misses (fun s' he => by injection he with he _; exact absurd he (by decide)) pre)))
  have hf := first_hits (env := envOf tr) (gs := [simpleExpression, .indirect groupedName, .prim (errorP "Value required")]) (.here hs)
  have hr : Hits (den (envOf tr) (Gram.star [binaryOperator, .first [
        .flatGroup [Gram.star [unaryOperator], .first [simpleExpression, .indirect groupedName]],
        .prim (errorP "Error in the expression after the binary operator")]])) (pre ++ onesText k) [] [] (· = []) :=
    star_hits (gs := [binaryOperator, _]) (.stop (.head (binary_misses (.inl rfl) _)))
  have : Hits (den (envOf tr) expressionInner) pre ([] ++ (onesText k ++ [])) [] _ :=
    flat_hits (gs := [Gram.star [unaryOperator], .first [simpleExpression, .indirect groupedName, .prim (errorP "Value required")], Gram.star [binaryOperator, .first [
        .flatGroup [Gram.star [unaryOperator], .first [simpleExpression, .indirect groupedName]],
        .prim (errorP "Error in the expression after the binary operator")]]])
      (.cons (by simpa using h0) (.cons (by simpa [onesText] using hf) (.single (by simpa using hr))))
  rw [List.nil_append, List.append_nil] at this
  refine this.mono fun l hl => ?_
  obtain ⟨x, y, rfl, rfl, y1, y2, rfl, ⟨z1, z2, rfl, ⟨a, rfl, ha⟩, hz⟩, rfl⟩ := hl
  simpa using Toks.cons ha (h2 _ hz)

/-! ### Executions that end -/

theorem childLoop_ends {p : Sem} {ps : List Sem} {k : Nat} {c : Ctx} (h : Takenoco.childLoop false (p :: ps) k c ≠ .timeout) :
    p c ≠ .timeout ∧ ∀ o, p c = .ok (o, none) → o.status = .matched → Takenoco.childLoop false ps (k + 1) o ≠ .timeout := by
  rw [Takenoco.childLoop] at h
  refine ⟨fun he => h (by simp only [he]), fun o ho hs he => h ?_⟩
  simp [ho, fixStatus, hs, he]

theorem flat_done {env : Env} {n : Nat} {gs : List Gram} {c : Ctx} (h : run env (n + 1) (.flatGroup gs) c ≠ .timeout) :
    Takenoco.childLoop false (gs.map (run env n)) 0 { { c with cls := ":base:FlatGroup" } with status := .matched } ≠ .timeout := by
  intro he
  refine h ?_
  rw [run.eq_def]
  simp [flatGroup, baseParser, readProps, qtyOnce, Takenoco.parentLoop, Takenoco.iteration, he]

theorem trans_done {env : Env} {n : Nat} {g : Gram} {t : Tr} {c : Ctx} (h : run env (n + 1) (.trans g [t]) c ≠ .timeout) :
    run env n g { { c with cls := ":base:Trans" } with status := .matched } ≠ .timeout ∧
    ∀ o new, run env n g { { c with cls := ":base:Trans" } with status := .matched } = .ok (o, none) → o.status = .matched → o.stack = c.stack ++ new →
      runTr env n t { c with cls := ":base:Trans" } new ≠ .timeout := by
  rw [run.eq_def] at h
  simp only [trans, baseParser] at h
  refine ⟨fun he => h ?_, fun o new ho hs hn he => h ?_⟩
  · simp [readProps, qtyOnce, Takenoco.parentLoop, Takenoco.iteration, Takenoco.childLoop, he]
  · simp [readProps, qtyOnce, Takenoco.parentLoop, Takenoco.iteration, Takenoco.childLoop, ho, fixStatus, hs, callFn, Takenoco.afterLoop, negateStatus, checkMin, hn,
      Takenoco.applyTransforms, variadic, Takenoco.applyTrs, he]

theorem run_hits {env : Env} {n : Nat} {g : Gram} {c : Ctx} {pre w rest : Bytes} {Q : List Ast → Prop} (hn : run env n g c ≠ .timeout)
    (h : Hits (den env g) pre w rest Q) (hc : At c pre (w ++ rest)) : ∃ o, run env n g c = .ok (o, none) ∧ Reached c o pre w rest Q := by
  obtain ⟨o, h1, h2⟩ := h c hc
  refine ⟨o, ?_, h2⟩
  rw [← den_of_run hn]
  cases hd : den env g c with
  | panic x => rw [hd] at h1; cases h1
  | timeout => rw [hd] at h1; cases h1
  | ok oe =>
    rw [hd] at h1
    obtain ⟨o', e⟩ := oe
    cases e with
    | some e => cases h1
    | none =>
      simp only [Outcome.of] at h1
      split at h1 <;> cases h1
      rfl

/-! ### The program -/

theorem ones_adds (i : Info) (hR : RulesFor tr Is num neg bin) {x : Panic} {a gc : Gram} {ts : List Tr} {gb : Bool → Gram}
    (htr : tr = .production [([.trans a ts], true), ([gb true], false), ([gb false], false)] gc)
    (H : ∀ tag, Evaluates Is neg bin x tag (den (envOf tr) (.trans a ts)) (fun t => den (envOf tr) (gb t)) (den (envOf tr) gc))
    (hbin : ∀ d e, ∃ v, bin .add d e = some v) (k N : Nat) (hN : run (envOf tr) N (programOf tr) (newStrCtx (onesText k)) ≠ .timeout) :
    Adds (((programOf tr).traced i).run (fun name _ => (envOf tr name).traced i) N (newStrCtx (onesText k))) (k ^ 2 + 3 * k) := by
  have hA : ∀ n (g : Gram), AgreesP (fun _ => True) ((g.traced i).run (fun name _ => (envOf tr name).traced i) n) (run (envOf tr) n g) := fun n g => by
    have := (agrees_run (Q := fun _ => True) (tenv := fun name _ => (envOf tr name).traced i) (fun _ _ => plain_traced _ _) (fun _ _ => wraps_true _) n).1 (g.traced i) (wraps_true _)
    rwa [plain_traced] at this
  have hAT : ∀ n (t : Tr), AgreesT (fun _ => True) ((t.traced i).run (fun name _ => (envOf tr name).traced i) n) (runTr (envOf tr) n t) := fun n t => by
    have := (agrees_run (Q := fun _ => True) (tenv := fun name _ => (envOf tr name).traced i) (fun _ _ => plain_traced _ _) (fun _ _ => wraps_true _) n).2 (t.traced i) (allTr_of (fun _ _ _ => trivial) _)
    rwa [plain_tracedTr] at this
  have hU : ∀ n c, Adds (TGram.run (fun name _ => (envOf tr name).traced i) n (.trans none (a.traced i) (tracedTrs i ts)) c) 0 := fun n c =>
    ((agrees_run (Q := fun _ => True) (tenv := fun name _ => (envOf tr name).traced i) (fun _ _ => plain_traced _ _) (fun _ _ => wraps_true _) n).1
      (.trans none (a.traced i) (tracedTrs i ts)) (wraps_true _) c).adds
  cases N with
  | zero => exact absurd rfl hN
  | succ N =>
  have hE := flat_done (gs := [.prim startP, Gram.erased sp0, expressionOf tr, .prim endS]) hN
  rw [TGram.run.eq_def]
  simp only [programOf, Gram.traced, tracedList, List.map_cons, List.map_nil] at hE ⊢
  refine (adds_counted i ?_).mono (Nat.le_add_left _ _)
  have hAs : Each (AgreesP (fun _ => True)) [(Gram.traced i (.prim startP)).run (fun name _ => (envOf tr name).traced i) N,
      (Gram.traced i (Gram.erased sp0)).run (fun name _ => (envOf tr name).traced i) N,
      (Gram.traced i (expressionOf tr)).run (fun name _ => (envOf tr name).traced i) N,
      (Gram.traced i (.prim endS)).run (fun name _ => (envOf tr name).traced i) N]
      [run (envOf tr) N (.prim startP), run (envOf tr) N (Gram.erased sp0), run (envOf tr) N (expressionOf tr), run (envOf tr) N (.prim endS)] :=
    .cons (hA _ _) (.cons (hA _ _) (.cons (hA _ _) (.cons (hA _ _) .nil)))
  refine base_adds (tr := none) (us := none) hAs trivial ?_
  have hat : At { { newStrCtx (onesText k) with cls := ":base:FlatGroup" } with status := .matched } [] (onesText k) := ⟨rfl, rfl, rfl⟩
  obtain ⟨e1, hE⟩ := childLoop_ends hE
  obtain ⟨o1, r1, q1⟩ := run_hits e1 (show Hits (den (envOf tr) (.prim startP)) [] [] (onesText k) (· = []) from startP_hits _) (by simpa using hat)
  obtain ⟨e2, hE⟩ := childLoop_ends (hE o1 r1 q1.at_.ok)
  obtain ⟨o2, r2, q2⟩ := run_hits e2 (sp0_hits (env := envOf tr) (b := []) (s := onesText k) ⟨[], by simp, rfl⟩
    (Opens.notWhite ⟨0x31, plusOnes k, rfl, .inl rfl⟩) []) (by simpa using q1.at_)
  obtain ⟨e3, hE⟩ := childLoop_ends (hE o2 r2 q2.at_.ok)
  refine childLoop_past (hA _ _) r1 q1.at_.ok (childLoop_past (hA _ _) r2 q2.at_.ok (childLoop_here (ds := [run (envOf tr) N (.prim endS)]) (.cons (hA _ _) .nil) ?_))
  -- the expression
  cases N with
  | zero => exact absurd rfl e3
  | succ N =>
  have hE' := trans_done (g := expressionInner) (t := tr) e3
  show Adds (TGram.run _ (N + 1) (Gram.traced i (.trans expressionInner [tr])) o2) _
  rw [TGram.run.eq_def]
  simp only [Gram.traced, tracedTrs, List.map_cons, List.map_nil, List.isEmpty_cons, Bool.false_eq_true, if_false]
  refine (adds_counted i ?_).mono (Nat.le_add_left _ _)
  have hat2 : At { { o2 with cls := ":base:Trans" } with status := .matched } [] (onesText k) := ⟨by simpa using q2.at_.str, by simpa using q2.at_.pos, rfl⟩
  obtain ⟨o3, r3, q3⟩ := run_hits hE'.1 (ones_hits hR k []) (by simpa using hat2)
  obtain ⟨new, hs, hT⟩ := q3.stack
  have e4 := hE'.2 o3 new r3 q3.at_.ok hs
  refine trans_adds (hA _ _) (hAT _ _) r3 q3.at_.ok hs ?_
  -- the production rules
  cases N with
  | zero => exact absurd rfl e4
  | succ N =>
  subst htr
  rw [runTr.eq_def] at e4
  rw [TTr.run.eq_def]
  simp only [Tr.traced, tracedPrecs, tracedPrec, tracedList, List.map_cons, List.map_nil] at e4 ⊢
  have := sum_adds (Q := fun _ => True) (H o2.tag) hbin (hA N (.trans a ts)) (hA N (gb true)) (hA N (gb false)) (hA N gc) (run_le_den _ _ _) (run_le_den _ _ _)
    (run_le_den _ _ _) (run_le_den _ _ _) (fun c => ?_) (List.replicate k (num 1)) N new (num 1) hT e4
  · simpa using this
  · cases N with
    | zero => exact absurd rfl e4
    | succ N =>
      rw [TGram.run.eq_def]
      simp only [Gram.traced]
      refine adds_counted i (B := 0) ?_
      have := hU (N + 1) c
      rw [TGram.run.eq_def] at this
      exact this
end
end Takenoco
