import Verif.Lemmas.Fuel
/-
The fuel-free meaning of a grammar, and the equations it satisfies.
-/
namespace Takenoco

/-- The meaning of a grammar: the result of a run with enough fuel, `timeout` if there is no such run. -/
noncomputable def den (env : Env) (g : Gram) : Sem := fun c =>
  open Classical in
  if h : ∃ n, run env n g c ≠ .timeout then run env h.choose g c else .timeout

/-- The meaning of a transformer. -/
noncomputable def denTr (env : Env) (t : Tr) : TSem := fun c asts =>
  open Classical in
  if h : ∃ n, runTr env n t c asts ≠ .timeout then runTr env h.choose t c asts else .timeout

theorem den_of_run {env : Env} {n : Nat} {g : Gram} {c : Ctx} (h : run env n g c ≠ .timeout) :
    den env g c = run env n g c := by
  have hex : ∃ n, run env n g c ≠ .timeout := ⟨n, h⟩
  unfold den
  rw [dif_pos hex]
  rcases Nat.le_total hex.choose n with hle | hle
  · exact (run_stable hle hex.choose_spec).symm
  · exact run_stable hle h

theorem denTr_of_run {env : Env} {n : Nat} {t : Tr} {c : Ctx} {asts : List Ast}
    (h : runTr env n t c asts ≠ .timeout) : denTr env t c asts = runTr env n t c asts := by
  have hex : ∃ n, runTr env n t c asts ≠ .timeout := ⟨n, h⟩
  unfold denTr
  rw [dif_pos hex]
  rcases Nat.le_total hex.choose n with hle | hle
  · exact (runTr_stable hle hex.choose_spec).symm
  · exact runTr_stable hle h

theorem run_le_den (env : Env) (n : Nat) (g : Gram) : LeS (run env n g) (den env g) := by
  intro c
  by_cases h : run env n g c = .timeout
  · exact .inl h
  · exact .inr (den_of_run h).symm

theorem runTr_le_den (env : Env) (n : Nat) (t : Tr) : LeT (runTr env n t) (denTr env t) := by
  intro c asts
  by_cases h : runTr env n t c asts = .timeout
  · exact .inl h
  · exact .inr (denTr_of_run h).symm

/-- `b` is not completed, or `f` reaches it. -/
def LimO {α : Type} (f : Nat → Out α) (b : Out α) : Prop := b = .timeout ∨ ∃ N, ∀ n, N ≤ n → f n = b

theorem LimO.const {α : Type} (b : Out α) : LimO (fun _ => b) b := .inr ⟨0, fun _ _ => rfl⟩

theorem LimO.bind {α β : Type} {f : Nat → Out α} {b : Out α} {h : Nat → α → Out β} {h' : α → Out β}
    (hf : LimO f b) (hh : ∀ v, LimO (fun n => h n v) (h' v)) :
    LimO (fun n => (f n).bind (h n)) (b.bind h') := by
  rcases hf with rfl | ⟨N, hN⟩
  · exact .inl rfl
  · cases b with
    | panic x => exact .inr ⟨N, fun n hn => by show (f n).bind (h n) = _; rw [hN n hn]; rfl⟩
    | timeout => exact .inl rfl
    | ok v =>
      rcases hh v with h0 | ⟨M, hM⟩
      · exact .inl h0
      · refine .inr ⟨max N M, fun n hn => ?_⟩
        show (f n).bind (h n) = _
        rw [hN n (by omega)]
        exact hM n (by omega)

theorem den_lim (env : Env) (g : Gram) (c : Ctx) : LimO (fun n => run env n g c) (den env g c) := by
  by_cases h : ∃ n, run env n g c ≠ .timeout
  · obtain ⟨N, hN⟩ := h
    refine .inr ⟨N, fun n hn => ?_⟩
    show run env n g c = den env g c
    rw [den_of_run hN, run_stable hn hN]
  · exact .inl (by unfold den; rw [dif_neg h])

theorem denTr_lim (env : Env) (t : Tr) (c : Ctx) (asts : List Ast) :
    LimO (fun n => runTr env n t c asts) (denTr env t c asts) := by
  by_cases h : ∃ n, runTr env n t c asts ≠ .timeout
  · obtain ⟨N, hN⟩ := h
    refine .inr ⟨N, fun n hn => ?_⟩
    show runTr env n t c asts = denTr env t c asts
    rw [denTr_of_run hN, runTr_stable hn hN]
  · exact .inl (by unfold denTr; rw [dif_neg h])

/-! ### Continuity of the engine -/

section
variable {α : Type} {F : Nat → α → Sem} {G : α → Sem}

theorem childLoop_lim (hF : ∀ a c, LimO (fun n => F n a c) (G a c)) (ex : Bool) (l : List α) (k : Nat) (c : Ctx) :
    LimO (fun n => childLoop ex (l.map (F n)) k c) (childLoop ex (l.map G) k c) := by
  have step : ∀ (p : Sem) ps k c, childLoop ex (p :: ps) k c = (p c).bind fun oe =>
      match (fixStatus oe.1 oe.2).status with
      | .error => .ok (.ret (fixStatus oe.1 oe.2) oe.2)
      | .unmatched => if ex then childLoop ex ps k c else .ok .unmatched
      | .matched => if ex then .ok (.fell (k + 1) (fixStatus oe.1 oe.2))
          else childLoop ex ps (k + 1) (fixStatus oe.1 oe.2) := by
    intro p ps k c
    rw [childLoop]
    cases p c <;> rfl
  induction l generalizing k c with
  | nil => exact .const _
  | cons a l ih =>
    simp only [List.map_cons, step]
    refine LimO.bind (hF a c) ?_
    intro v
    split
    · exact .const _
    · split
      · exact ih _ _
      · exact .const _
    · split
      · exact .const _
      · exact ih _ _

theorem iteration_lim (hF : ∀ a c, LimO (fun n => F n a c) (G a c)) (fn : Option ImplFn) (ex : Bool) (l : List α)
    (b k : Nat) (c : Ctx) :
    LimO (fun n => iteration fn ex (l.map (F n)) b k c) (iteration fn ex (l.map G) b k c) := by
  have step : ∀ (ps : List Sem), iteration fn ex ps b k c = (childLoop ex ps 0 c).bind fun ce =>
      match ce with
      | .ret o e => .ok (.ret o e)
      | .unmatched => .ok (.brk c)
      | .fell k' out =>
        if ex ∧ 0 < ps.length ∧ k' = 0 then .ok (.brk c)
        else
          match callFn fn k' b { out with qty := k } with
          | .panic p => .panic p
          | .timeout => .timeout
          | .ok (out, err) =>
            match out.status with
            | .error => .ok (.ret out err)
            | .unmatched => .ok (.brk c)
            | .matched => .ok (.next out) := by
    intro ps
    rw [iteration]
    cases childLoop ex ps 0 c with
    | panic x => rfl
    | timeout => rfl
    | ok ce => cases ce <;> rfl
  simp only [step, List.length_map]
  exact LimO.bind (childLoop_lim hF ex l 0 c) fun v => .const _

theorem parentLoop_lim {f : Nat → Nat → Ctx → Out IterEnd} {g : Nat → Ctx → Out IterEnd}
    (hf : ∀ k c, LimO (fun n => f n k c) (g k c)) (u : Bool) (m k : Nat) (c : Ctx) :
    LimO (fun n => parentLoop u (f n) m k c) (parentLoop u g m k c) := by
  have step : ∀ (g : Nat → Ctx → Out IterEnd) m k c, parentLoop u g (m + 1) k c = (g k c).bind fun ie =>
      match ie with
      | .ret o e => .ok (.ret o e)
      | .brk o => .ok (.done k o)
      | .next o => parentLoop u g m (k + 1) o := by
    intro g m k c
    rw [parentLoop]
    cases g k c with
    | panic x => rfl
    | timeout => rfl
    | ok ie => cases ie <;> rfl
  induction m generalizing k c with
  | zero => simp only [parentLoop]; exact .const _
  | succ m ih =>
    simp only [step]
    refine LimO.bind (hf k c) ?_
    intro v
    cases v with
    | ret o e => exact .const _
    | brk o => exact .const _
    | next o => exact ih _ _
end

section
variable {β : Type} {S : Nat → β → TSem} {U : β → TSem}

theorem applyTrs_lim (hS : ∀ b c asts, LimO (fun n => S n b c asts) (U b c asts)) (c : Ctx) (l : List β)
    (asts : List Ast) : LimO (fun n => applyTrs c (l.map (S n)) asts) (applyTrs c (l.map U) asts) := by
  have step : ∀ (t : TSem) ts asts, applyTrs c (t :: ts) asts = (t c asts).bind fun r =>
      match r with
      | (asts', none) => applyTrs c ts asts'
      | (asts', some e) => .ok (asts', some e) := by
    intro t ts asts
    rw [applyTrs]
    cases t c asts with
    | panic x => rfl
    | timeout => rfl
    | ok r => obtain ⟨l, e⟩ := r; cases e <;> rfl
  induction l generalizing asts with
  | nil => exact .const _
  | cons b l ih =>
    simp only [List.map_cons, step]
    refine LimO.bind (hS b c asts) ?_
    rintro ⟨asts', e⟩
    cases e with
    | none => exact ih _
    | some e => exact .const _

theorem applyTransforms_lim (hS : ∀ b c asts, LimO (fun n => S n b c asts) (U b c asts)) (l : Option (List β))
    (c o : Ctx) :
    LimO (fun n => applyTransforms (l.map (·.map (S n))) c o) (applyTransforms (l.map (·.map U)) c o) := by
  cases l with
  | none => exact .const _
  | some l =>
    have step : ∀ ts, applyTransforms (some ts) c o =
        if o.stack.length < c.stack.length then .panic .index
        else (applyTrs c ts (o.stack.drop c.stack.length)).bind fun r =>
          match r with
          | (_, some e) => .ok ({ o with status := .error }, some e)
          | (asts, none) => .ok ({ o with stack := o.stack.take c.stack.length ++ asts }, none) := by
      intro ts
      simp only [applyTransforms]
      cases applyTrs c ts (o.stack.drop c.stack.length) with
      | panic x => rfl
      | timeout => rfl
      | ok r => obtain ⟨l, e⟩ := r; cases e <;> rfl
    simp only [Option.map_some, step]
    split
    · exact .const _
    · exact LimO.bind (applyTrs_lim hS c l _) fun v => .const _
end

section
variable {α β : Type} {F : Nat → α → Sem} {G : α → Sem} {S : Nat → β → TSem} {U : β → TSem}

theorem afterLoop_lim (hS : ∀ b c asts, LimO (fun n => S n b c asts) (U b c asts)) (f : Flags) (fn : Option ImplFn)
    (tr : Option (List β)) (ctx : Ctx) (count : Nat) (out : Ctx) :
    LimO (fun n => afterLoop f fn (tr.map (·.map (S n))) ctx count out)
      (afterLoop f fn (tr.map (·.map U)) ctx count out) := by
  unfold afterLoop
  simp only
  split
  · exact .const _
  · split
    · exact .const _
    · exact .const _
    · split
      · exact .const _
      · exact applyTransforms_lim hS tr _ _

/-- With a fixed amount of fuel for its own loop, `BaseParser` is continuous. -/
theorem baseParser_lim (hF : ∀ a c, LimO (fun n => F n a c) (G a c))
    (hS : ∀ b c asts, LimO (fun n => S n b c asts) (U b c asts)) (fuel : Nat) (cls : String) (fn : Option ImplFn)
    (props : List PropItem) (l : List α) (tr : Option (List β)) (c : Ctx) :
    LimO (fun n => baseParser fuel cls fn props (l.map (F n)) (tr.map (·.map (S n))) c)
      (baseParser fuel cls fn props (l.map G) (tr.map (·.map U)) c) := by
  have step : ∀ ps tr, baseParser fuel cls fn props ps tr c =
      (parentLoop (decide ((readProps props).qty.max < 0))
        (iteration fn (readProps props).thereExists ps c.stack.length)
        (if decide ((readProps props).qty.max < 0) = true then fuel else (readProps props).qty.max.toNat) 0
        { c with cls := cls, status := .matched }).bind fun le =>
      match le with
      | .ret o e => .ok (o, e)
      | .done count out => afterLoop (readProps props) fn tr { c with cls := cls } count out := by
    intro ps tr
    rw [baseParser]
    simp only
    cases parentLoop (decide ((readProps props).qty.max < 0))
        (iteration fn (readProps props).thereExists ps c.stack.length)
        (if decide ((readProps props).qty.max < 0) = true then fuel else (readProps props).qty.max.toNat) 0
        { c with cls := cls, status := .matched } with
    | panic x => rfl
    | timeout => rfl
    | ok le => cases le <;> rfl
  simp only [step]
  refine LimO.bind (parentLoop_lim (fun k c => iteration_lim hF _ _ _ _ k c) _ _ _ _) ?_
  intro v
  cases v with
  | ret o e => exact .const _
  | done n o => exact afterLoop_lim hS _ _ _ _ _ _

theorem lightParser_lim {p : Nat → Sem} {q : Sem} (h : ∀ c, LimO (fun n => p n c) (q c)) (cls : String) (c : Ctx) :
    LimO (fun n => lightParser cls (p n) c) (lightParser cls q c) := by
  have step : ∀ p : Sem, lightParser cls p c = (p c).bind fun r =>
      .ok ({ (if (fixStatus r.1 r.2).status = .matched then { fixStatus r.1 r.2 with qty := 1 } else fixStatus r.1 r.2)
        with cls := cls }, r.2) := by
    intro p
    rw [lightParser]
    cases p c <;> rfl
  simp only [step]
  exact LimO.bind (h c) fun v => .const _

theorem lookBehindLoop_lim {p : Nat → Sem} {q : Sem} (h : ∀ c, LimO (fun n => p n c) (q c)) (neg : Bool) (c : Ctx)
    (k : Nat) (i : Int) : LimO (fun n => lookBehindLoop neg (p n) c k i) (lookBehindLoop neg q c k i) := by
  have step : ∀ (p : Sem) k i, lookBehindLoop neg p c (k + 1) i =
      if (c.pos : Int) - i < 0 then lookBehindLoop neg p c k (i + 1)
      else (p { c with pos := ((c.pos : Int) - i).toNat }).bind fun r =>
        match r with
        | (out, some e) => .ok (out, some e)
        | (out, none) =>
          if out.status = .matched then
            if neg then .ok ({ out with status := .unmatched }, none) else .ok (c, none)
          else lookBehindLoop neg p c k (i + 1) := by
    intro p k i
    rw [lookBehindLoop]
    cases p { c with pos := ((c.pos : Int) - i).toNat } with
    | panic x => rfl
    | timeout => rfl
    | ok r => obtain ⟨l, e⟩ := r; cases e <;> rfl
  induction k generalizing i with
  | zero => exact .const _
  | succ k ih =>
    simp only [step]
    split
    · exact ih _
    · refine LimO.bind (h _) ?_
      rintro ⟨o, e⟩
      cases e with
      | some e => exact .const _
      | none =>
        simp only
        split
        · exact .const _
        · exact ih _

theorem lookBehindBase_lim (hF : ∀ a c, LimO (fun n => F n a c) (G a c)) (neg : Bool) (a b : Int) (l : List α) (c : Ctx) :
    LimO (fun n => lookBehindBase neg a b (l.map (F n)) c) (lookBehindBase neg a b (l.map G) c) :=
  lookBehindLoop_lim (fun c => baseParser_lim (β := Unit) (S := fun _ _ _ _ => .timeout) (U := fun _ _ _ => .timeout) hF
    (fun _ _ _ => .const _) 0 _ none _ l none c) neg c _ _

theorem matchFn_lim (hS : ∀ b c asts, LimO (fun n => S n b c asts) (U b c asts)) (k : Int)
    (cases : List ((List Ast → Bool) × List β)) (c : Ctx) :
    LimO (fun n => matchFn k (cases.map fun x => (x.1, x.2.map (S n))) c)
      (matchFn k (cases.map fun x => (x.1, x.2.map U)) c) := by
  have step : ∀ (g : List Ast → Bool) ts cs, matchFn k ((g, ts) :: cs) c =
      if g c.stack then
        if (c.stack.length : Int) - k < 0 ∨ (c.stack.length : Int) < (c.stack.length : Int) - k then .panic .index
        else (applyTrs { c with len := 0, status := .unmatched } ts
            (c.stack.drop ((c.stack.length : Int) - k).toNat)).bind fun r =>
          match r with
          | (_, some e) => .ok ({ c with len := 0, status := .error }, some e)
          | (asts, none) =>
            .ok ({ c with
              len := 0, stack := c.stack.take ((c.stack.length : Int) - k).toNat ++ asts, status := .matched }, none)
      else matchFn k cs c := by
    intro g ts cs
    rw [matchFn]
    simp only
    cases applyTrs { c with len := 0, status := .unmatched } ts
            (c.stack.drop ((c.stack.length : Int) - k).toNat) with
    | panic x => rfl
    | timeout => rfl
    | ok r => obtain ⟨l, e⟩ := r; cases e <;> rfl
  induction cases with
  | nil => exact .const _
  | cons x xs ih =>
    simp only [List.map_cons, step]
    split
    · split
      · exact .const _
      · exact LimO.bind (applyTrs_lim hS _ _ _) fun v => .const _
    · exact ih
end

section
variable {α : Type} {F : Nat → α → Sem} {G : α → Sem}

theorem tryRules_lim (hF : ∀ a c, LimO (fun n => F n a c) (G a c)) (ctx : Ctx) (asts : List Ast) (p : Nat)
    (l : List α) : LimO (fun n => tryRules ctx asts p (l.map (F n))) (tryRules ctx asts p (l.map G)) := by
  have step : ∀ (r : Sem) rs, tryRules ctx asts p (r :: rs) = (r { ctx with pos := p }).bind fun x =>
      match x with
      | (_, some e) => .ok (.err e)
      | (out, none) =>
        if out.status ≠ .matched then tryRules ctx asts p rs
        else if asts.length < out.pos then .panic .index
        else .ok (.rewritten (asts.take p ++ out.stack ++ asts.drop out.pos)) := by
    intro r rs
    rw [tryRules]
    cases r { ctx with pos := p } with
    | panic x => rfl
    | timeout => rfl
    | ok x => obtain ⟨o, e⟩ := x; cases e <;> rfl
  induction l with
  | nil => exact .const _
  | cons a l ih =>
    simp only [List.map_cons, step]
    refine LimO.bind (hF a _) ?_
    rintro ⟨o, e⟩
    cases e with
    | some e => exact .const _
    | none =>
      simp only
      split
      · exact ih
      · exact .const _

theorem tryPositions_lim (hF : ∀ a c, LimO (fun n => F n a c) (G a c)) (ctx : Ctx) (asts : List Ast) (l : List α)
    (rtol : Bool) (k i : Nat) :
    LimO (fun n => tryPositions ctx asts (l.map (F n)) rtol k i) (tryPositions ctx asts (l.map G) rtol k i) := by
  have step : ∀ rs k i, tryPositions ctx asts rs rtol (k + 1) i =
      (tryRules ctx asts (if rtol then asts.length - i else i) rs).bind fun x =>
      match x with
      | .noMatch => tryPositions ctx asts rs rtol k (i + 1)
      | r => .ok r := by
    intro rs k i
    rw [tryPositions]
    cases tryRules ctx asts (if rtol then asts.length - i else i) rs with
    | panic x => rfl
    | timeout => rfl
    | ok x => cases x <;> rfl
  induction k generalizing i with
  | zero => exact .const _
  | succ k ih =>
    simp only [step]
    refine LimO.bind (tryRules_lim hF _ _ _ _) ?_
    intro v
    cases v with
    | noMatch => exact ih _
    | rewritten l => exact .const _
    | err e => exact .const _

theorem tryPrecedences_lim (hF : ∀ a c, LimO (fun n => F n a c) (G a c)) (tag : Value) (asts : List Ast)
    (ps : List (List α × Bool)) :
    LimO (fun n => tryPrecedences tag asts (ps.map fun p => (p.1.map (F n), p.2)))
      (tryPrecedences tag asts (ps.map fun p => (p.1.map G, p.2))) := by
  have step : ∀ rs d ps, tryPrecedences tag asts ((rs, d) :: ps) =
      (tryPositions (newObjCtx (astSliceSrc asts) tag) asts rs d (asts.length + 1) 0).bind fun x =>
      match x with
      | .noMatch => tryPrecedences tag asts ps
      | r => .ok r := by
    intro rs d ps
    rw [tryPrecedences]
    cases tryPositions (newObjCtx (astSliceSrc asts) tag) asts rs d (asts.length + 1) 0 with
    | panic x => rfl
    | timeout => rfl
    | ok x => cases x <;> rfl
  induction ps with
  | nil => exact .const _
  | cons p ps ih =>
    simp only [List.map_cons, step]
    refine LimO.bind (tryPositions_lim hF _ _ _ _ _ _) ?_
    intro v
    cases v with
    | noMatch => exact ih
    | rewritten l => exact .const _
    | err e => exact .const _

theorem checkHolds_lim {p : Nat → Sem} {q : Sem} (h : ∀ c, LimO (fun n => p n c) (q c)) (tag : Value) (asts : List Ast) :
    LimO (fun n => checkHolds (p n) tag asts) (checkHolds q tag asts) := by
  have step : ∀ p : Sem, checkHolds p tag asts = (p (newObjCtx (astSliceSrc asts) tag)).bind fun x =>
      .ok (x.2.isNone && decide (x.1.status = .matched)) := by
    intro p
    rw [checkHolds]
    cases p (newObjCtx (astSliceSrc asts) tag) <;> rfl
  simp only [step]
  exact LimO.bind (h _) fun v => .const _

theorem productionLoop_lim (hF : ∀ a c, LimO (fun n => F n a c) (G a c)) {p : Nat → Sem} {q : Sem}
    (h : ∀ c, LimO (fun n => p n c) (q c)) (ps : List (List α × Bool)) (tag : Value) (m : Nat) (asts : List Ast) :
    LimO (fun n => productionLoop (ps.map fun p => (p.1.map (F n), p.2)) (p n) tag m asts)
      (productionLoop (ps.map fun p => (p.1.map G, p.2)) q tag m asts) := by
  have step : ∀ ps (p : Sem) m asts, productionLoop ps p tag (m + 1) asts =
      (tryPrecedences tag asts ps).bind fun x =>
      match x with
      | .err e => .ok ([], some e)
      | .noMatch => (checkHolds p tag asts).bind fun b =>
          if b then .ok (asts, none) else .ok ([], some (.msg "Production rules are not matched."))
      | .rewritten asts' => (checkHolds p tag asts').bind fun b =>
          if b then .ok (asts', none) else productionLoop ps p tag m asts' := by
    intro ps p m asts
    rw [productionLoop]
    cases tryPrecedences tag asts ps with
    | panic x => rfl
    | timeout => rfl
    | ok x =>
      cases x with
      | err e => rfl
      | noMatch =>
        simp only [Out.bind]
        cases checkHolds p tag asts with
        | panic x => rfl
        | timeout => rfl
        | ok b => cases b <;> rfl
      | rewritten asts' =>
        simp only [Out.bind]
        cases checkHolds p tag asts' with
        | panic x => rfl
        | timeout => rfl
        | ok b => cases b <;> rfl
  induction m generalizing asts with
  | zero => exact .const _
  | succ m ih =>
    simp only [step]
    refine LimO.bind (tryPrecedences_lim hF tag asts ps) ?_
    intro v
    cases v with
    | err e => exact .const _
    | noMatch => exact LimO.bind (checkHolds_lim h tag asts) fun b => .const _
    | rewritten asts' =>
      refine LimO.bind (checkHolds_lim h tag asts') fun b => ?_
      cases b with
      | true => exact .const _
      | false => exact ih _
end

/-! ### Equations -/

/-- Two results, one of which is reached by what the other bounds, are equal. -/
theorem eq_of_lim {f : Nat → Out PRes} {a b : Out PRes} (hle : ∀ n, (f n).le b) (ha : LimO f a) (hb : LimO f b)
    (hle' : ∀ n, (f n).le a) : a = b := by
  rcases ha with rfl | ⟨N, hN⟩
  · rcases hb with rfl | ⟨M, hM⟩
    · rfl
    · rcases hle' M with h | h
      · rw [← hM M (Nat.le_refl _), h]
      · rw [← hM M (Nat.le_refl _), h]
  · rcases hle N with h | h
    · rcases hb with rfl | ⟨M, hM⟩
      · rw [← hN N (Nat.le_refl _), h]
      · rw [← hN (max N M) (by omega), hM (max N M) (by omega)]
    · rw [← hN N (Nat.le_refl _), h]

/-- `den` of a constructor whose execution does not itself need fuel. -/
theorem den_eq {env : Env} {g : Gram} {c : Ctx} {f : Nat → Out PRes} {b : Out PRes}
    (hrun : ∀ n, run env (n + 1) g c = f n) (hle : ∀ n, (f n).le b) (hb : LimO f b) : den env g c = b := by
  have h1 : LimO f (den env g c) := by
    rcases den_lim env g c with h | ⟨N, hN⟩
    · exact .inl h
    · exact .inr ⟨N, fun n hn => by rw [← hrun]; exact hN (n + 1) (by omega)⟩
  have h2 : ∀ n, (f n).le (den env g c) := fun n => by rw [← hrun]; exact run_le_den env (n + 1) g c
  exact eq_of_lim hle h1 hb h2

variable (env : Env)

theorem den_prim (p : Sem) : den env (.prim p) = p :=
  funext fun c => den_eq (f := fun _ => p c) (fun _ => rfl) (fun _ => .refl _) (.const _)

theorem lel (n : Nat) (gs : List Gram) : LeL LeS (gs.map (run env n)) (gs.map (den env)) :=
  LeL.map _ _ gs fun g => run_le_den env n g
theorem lelTr (n : Nat) (ts : List Tr) : LeL LeT (ts.map (runTr env n)) (ts.map (denTr env)) :=
  LeL.map _ _ ts fun t => runTr_le_den env n t

theorem den_flatGroup (gs : List Gram) : den env (.flatGroup gs) = flatGroup (gs.map (den env)) :=
  funext fun c => den_eq (fun _ => rfl) (fun n => baseParser_le (Nat.le_refl _) (lel env n gs) .none c)
    (baseParser_lim (den_lim env) (denTr_lim env) 0 _ none _ gs none c)

theorem den_first (gs : List Gram) : den env (.first gs) = first (gs.map (den env)) :=
  funext fun c => den_eq (fun _ => rfl) (fun n => baseParser_le (Nat.le_refl _) (lel env n gs) .none c)
    (baseParser_lim (den_lim env) (denTr_lim env) 0 _ none _ gs none c)

theorem den_lookAhead (gs : List Gram) : den env (.lookAhead gs) = lookAhead (gs.map (den env)) :=
  funext fun c => den_eq (fun _ => rfl) (fun n => baseParser_le (Nat.le_refl _) (lel env n gs) .none c)
    (baseParser_lim (den_lim env) (denTr_lim env) 0 _ none _ gs none c)

theorem den_lookAheadN (gs : List Gram) : den env (.lookAheadN gs) = lookAheadN (gs.map (den env)) :=
  funext fun c => den_eq (fun _ => rfl) (fun n => baseParser_le (Nat.le_refl _) (lel env n gs) .none c)
    (baseParser_lim (den_lim env) (denTr_lim env) 0 _ none _ gs none c)

theorem den_group (gs : List Gram) : den env (.group gs) = group (gs.map (den env)) :=
  funext fun c => den_eq (fun _ => rfl)
    (fun n => baseParser_le (Nat.le_refl _) (lel env n gs) (.some (LeL.refl (fun _ _ _ => .refl _) _)) c)
    (baseParser_lim (S := fun _ => id) (U := id) (den_lim env) (fun _ _ _ => .const _) 0 _ none _ gs
      (some [groupingTransform]) c)

theorem den_lookBehind (a b : Int) (gs : List Gram) :
    den env (.lookBehind a b gs) = lookBehind a b (gs.map (den env)) :=
  funext fun c => den_eq (fun _ => rfl) (fun n => lookBehindBase_le (lel env n gs) c)
    (lookBehindBase_lim (den_lim env) _ a b gs c)

theorem den_lookBehindN (a b : Int) (gs : List Gram) :
    den env (.lookBehindN a b gs) = lookBehindN a b (gs.map (den env)) :=
  funext fun c => den_eq (fun _ => rfl) (fun n => lookBehindBase_le (lel env n gs) c)
    (lookBehindBase_lim (den_lim env) _ a b gs c)

theorem variadic_map {β : Type} (S : β → TSem) (l : List β) :
    variadic (l.map S) = (if l.isEmpty then none else some l).map (·.map S) := by
  cases l <;> rfl

theorem den_trans (g : Gram) (trs : List Tr) :
    den env (.trans g trs) = trans (den env g) (trs.map (denTr env)) :=
  funext fun c => den_eq (fun _ => rfl)
    (fun n => baseParser_le (Nat.le_refl _) (.cons (run_le_den env n g) .nil) (variadic_le (lelTr env n trs)) c) (by
      have := baseParser_lim (den_lim env) (denTr_lim env) 0 ":base:Trans" none [] [g]
        (if trs.isEmpty then none else some trs) c
      simp only [← variadic_map] at this
      exact this)

theorem den_indirect (i : Nat) : den env (.indirect i) = indirect (den env (env i)) :=
  funext fun c => den_eq (fun _ => rfl) (fun n => lightParser_le (run_le_den env n (env i)) c)
    (lightParser_lim (den_lim env (env i)) _ c)

theorem den_match (k : Int) (cases : List ((List Ast → Bool) × List Tr)) :
    den env (.match k cases) = matchP k (cases.map fun x => (x.1, x.2.map (denTr env))) :=
  funext fun c => by
    have hle : ∀ n, LeL LeCase (cases.map fun x => (x.1, x.2.map (runTr env n)))
        (cases.map fun x => (x.1, x.2.map (denTr env))) := fun n => LeL.map _ _ cases fun x => ⟨rfl, lelTr env n x.2⟩
    refine den_eq (f := fun n => matchP k (cases.map fun x => (x.1, x.2.map (runTr env n))) c) (fun _ => rfl)
      ?_ ?_
    · exact fun n => lightParser_le (matchFn_le (hle n)) c
    · exact (lightParser_lim (matchFn_lim (denTr_lim env) k cases) _ c)

theorem denTr_fn (f : TSem) : denTr env (.fn f) = f := by
  funext c asts
  by_cases h : f c asts = .timeout
  · rw [h]
    unfold denTr
    rw [dif_neg]
    rintro ⟨n, hn⟩
    cases n with
    | zero => exact hn rfl
    | succ n => exact hn h
  · exact denTr_of_run (n := 1) h

/-- A repetition, with enough fuel for its own loop. -/
theorem den_repeat_of (t : Times) (gs : List Gram) (c : Ctx) (fuel : Nat)
    (h : repeatP fuel t (gs.map (den env)) c ≠ .timeout) :
    den env (.repeat t gs) c = repeatP fuel t (gs.map (den env)) c := by
  have hl := baseParser_lim (den_lim env) (denTr_lim env) fuel ":base:Repeat" none [.times t] gs none c
  rcases hl with hl | ⟨N, hN⟩
  · exact absurd hl h
  · have h1 := hN (max N fuel) (by omega)
    have h2 : (repeatP fuel t (gs.map (run env (max N fuel))) c).le
        (repeatP (max N fuel) t (gs.map (run env (max N fuel))) c) :=
      baseParser_le (by omega) (LeL.refl (fun _ _ => .refl _) _) .none c
    have h3 : repeatP fuel t (gs.map (run env (max N fuel))) c = repeatP fuel t (gs.map (den env)) c := h1
    rcases h2 with h2 | h2
    · exact absurd (h3.symm.trans h2) h
    · have : run env (max N fuel + 1) (.repeat t gs) c = repeatP fuel t (gs.map (den env)) c := by
        rw [← h3, h2]; rfl
      rw [den_of_run (n := max N fuel + 1) (by rw [this]; exact h), this]

/-- If a repetition does not terminate with any fuel for its loop, its meaning is `timeout`. -/
theorem den_repeat_diverges (t : Times) (gs : List Gram) (c : Ctx)
    (h : ∀ fuel, repeatP fuel t (gs.map (den env)) c = .timeout) : den env (.repeat t gs) c = .timeout := by
  rcases den_lim env (.repeat t gs) c with hd | ⟨N, hN⟩
  · exact hd
  · have h1 := hN (N + 1) (by omega)
    have h2 : (repeatP N t (gs.map (run env N)) c).le (repeatP N t (gs.map (den env)) c) :=
      baseParser_le (Nat.le_refl _) (lel env N gs) .none c
    rw [h N] at h2
    rw [← h1]
    rcases h2 with h2 | h2 <;> exact h2

/-- A direct call of `BaseParser`, with enough fuel for its own loop. -/
theorem den_base_of (cls : String) (fn : Option ImplFn) (props : List PropItem) (gs : List Gram)
    (tr : Option (List Tr)) (c : Ctx) (fuel : Nat)
    (h : baseParser fuel cls fn props (gs.map (den env)) (tr.map (·.map (denTr env))) c ≠ .timeout) :
    den env (.base cls fn props gs tr) c =
      baseParser fuel cls fn props (gs.map (den env)) (tr.map (·.map (denTr env))) c := by
  have hl := baseParser_lim (den_lim env) (denTr_lim env) fuel cls fn props gs tr c
  rcases hl with hl | ⟨N, hN⟩
  · exact absurd hl h
  · have h1 := hN (max N fuel) (by omega)
    have h2 : (baseParser fuel cls fn props (gs.map (run env (max N fuel))) (tr.map (·.map (runTr env (max N fuel)))) c).le
        (baseParser (max N fuel) cls fn props (gs.map (run env (max N fuel)))
          (tr.map (·.map (runTr env (max N fuel)))) c) := by
      refine baseParser_le (by omega) (LeL.refl (fun _ _ => .refl _) _) ?_ c
      cases tr with
      | none => exact .none
      | some ts => exact .some (LeL.refl (fun _ _ _ => .refl _) _)
    have h3 : baseParser fuel cls fn props (gs.map (run env (max N fuel))) (tr.map (·.map (runTr env (max N fuel)))) c =
      baseParser fuel cls fn props (gs.map (den env)) (tr.map (·.map (denTr env))) c := h1
    rcases h2 with h2 | h2
    · exact absurd (h3.symm.trans h2) h
    · have : run env (max N fuel + 1) (.base cls fn props gs tr) c =
          baseParser fuel cls fn props (gs.map (den env)) (tr.map (·.map (denTr env))) c := by
        rw [← h3, h2]; rfl
      rw [den_of_run (n := max N fuel + 1) (by rw [this]; exact h), this]

theorem den_base_diverges (cls : String) (fn : Option ImplFn) (props : List PropItem) (gs : List Gram)
    (tr : Option (List Tr)) (c : Ctx)
    (h : ∀ fuel, baseParser fuel cls fn props (gs.map (den env)) (tr.map (·.map (denTr env))) c = .timeout) :
    den env (.base cls fn props gs tr) c = .timeout := by
  rcases den_lim env (.base cls fn props gs tr) c with hd | ⟨N, hN⟩
  · exact hd
  · have h1 := hN (N + 1) (by omega)
    have h2 : (baseParser N cls fn props (gs.map (run env N)) (tr.map (·.map (runTr env N))) c).le
        (baseParser N cls fn props (gs.map (den env)) (tr.map (·.map (denTr env))) c) := by
      refine baseParser_le (Nat.le_refl _) (lel env N gs) ?_ c
      cases tr with
      | none => exact .none
      | some ts => exact .some (lelTr env N ts)
    rw [h N] at h2
    rw [← h1]
    rcases h2 with h2 | h2 <;> exact h2

/-- A production rule, with enough fuel for its own loop. -/
theorem denTr_production_of (precs : List (List Gram × Bool)) (check : Gram) (c : Ctx) (asts : List Ast) (fuel : Nat)
    (h : productionRule fuel (precs.map fun p => (p.1.map (den env), p.2)) (den env check) c asts ≠ .timeout) :
    denTr env (.production precs check) c asts =
      productionRule fuel (precs.map fun p => (p.1.map (den env), p.2)) (den env check) c asts := by
  have hl := productionLoop_lim (den_lim env) (den_lim env check) precs c.tag fuel asts
  rcases hl with hl | ⟨N, hN⟩
  · exact absurd hl h
  · have h1 := hN (max N fuel) (by omega)
    have h2 := productionLoop_le (LeL.refl (R := LePrec) (fun p => ⟨LeL.refl (fun _ _ => .refl _) _, rfl⟩)
      (precs.map fun p => (p.1.map (run env (max N fuel)), p.2))) (p := run env (max N fuel) check)
      (fun _ => .refl _) c.tag fuel (max N fuel) (by omega) asts
    simp only at h1
    rcases h2 with h2 | h2
    · rw [h2] at h1; exact absurd h1.symm h
    · have : runTr env (max N fuel + 1) (.production precs check) c asts =
          productionRule fuel (precs.map fun p => (p.1.map (den env), p.2)) (den env check) c asts := by
        unfold productionRule
        rw [← h1, h2]; rfl
      rw [denTr_of_run (n := max N fuel + 1) (by rw [this]; exact h), this]

theorem denTr_production_diverges (precs : List (List Gram × Bool)) (check : Gram) (c : Ctx) (asts : List Ast)
    (h : ∀ fuel, productionRule fuel (precs.map fun p => (p.1.map (den env), p.2)) (den env check) c asts = .timeout) :
    denTr env (.production precs check) c asts = .timeout := by
  rcases denTr_lim env (.production precs check) c asts with hd | ⟨N, hN⟩
  · exact hd
  · have h1 := hN (N + 1) (by omega)
    have h2 : (runTr env (N + 1) (.production precs check) c asts).le
        (productionRule N (precs.map fun p => (p.1.map (den env), p.2)) (den env check) c asts) := by
      have hle : LeL LePrec (precs.map fun p => (p.1.map (run env N), p.2))
        (precs.map fun p => (p.1.map (den env), p.2)) := LeL.map _ _ precs fun p => ⟨lel env N p.1, rfl⟩
      exact productionLoop_le hle (run_le_den env N check) c.tag N N (Nat.le_refl _) asts
    rw [h N] at h2
    rw [← h1]
    rcases h2 with h2 | h2 <;> exact h2

end Takenoco
