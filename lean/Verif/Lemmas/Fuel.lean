import Verif.Model.Gram
/-
More fuel never changes the result of a run that has completed.
-/
namespace Takenoco

/-- `a` is `b`, or `a` has not completed. -/
def Out.le {α : Type} (a b : Out α) : Prop := a = .timeout ∨ a = b

theorem Out.le.refl {α : Type} (a : Out α) : a.le a := .inr rfl
theorem Out.le.bot {α : Type} (a : Out α) : (Out.timeout : Out α).le a := .inl rfl
theorem Out.le.trans {α : Type} {a b c : Out α} (h : a.le b) (h' : b.le c) : a.le c := by
  rcases h with h | h
  · exact .inl h
  · rw [h]; exact h'

/-- The same for parsers and transformers. -/
def LeS (p q : Sem) : Prop := ∀ c, (p c).le (q c)
def LeT (t u : TSem) : Prop := ∀ c asts, (t c asts).le (u c asts)

/-- Pointwise on lists. -/
inductive LeL {α : Type} (R : α → α → Prop) : List α → List α → Prop where
  | nil : LeL R [] []
  | cons {a b : α} {as bs : List α} : R a b → LeL R as bs → LeL R (a :: as) (b :: bs)

theorem LeL.length {α : Type} {R : α → α → Prop} {as bs : List α} (h : LeL R as bs) : as.length = bs.length := by
  induction h with
  | nil => rfl
  | cons _ _ ih => simp [ih]

theorem LeL.map {α β : Type} {R : β → β → Prop} (f g : α → β) (l : List α) (h : ∀ a, R (f a) (g a)) :
    LeL R (l.map f) (l.map g) := by
  induction l with
  | nil => exact .nil
  | cons a l ih => exact .cons (h a) ih

theorem LeL.refl {α : Type} {R : α → α → Prop} (hR : ∀ a, R a a) (l : List α) : LeL R l l := by
  induction l with
  | nil => exact .nil
  | cons a l ih => exact .cons (hR a) ih

theorem childLoop_le {ex : Bool} {ps qs : List Sem} (h : LeL LeS ps qs) (k : Nat) (c : Ctx) :
    (childLoop ex ps k c).le (childLoop ex qs k c) := by
  induction h generalizing k c with
  | nil => exact .refl _
  | @cons p q ps qs hpq _ ih =>
    unfold childLoop
    rcases hpq c with h | h
    · rw [h]; exact .bot _
    · rw [h]
      split
      · exact .refl _
      · exact .refl _
      · rename_i o e _
        simp only
        split
        · exact .refl _
        · split
          · exact ih _ _
          · exact .refl _
        · split
          · exact .refl _
          · exact ih _ _

theorem iteration_le {fn : Option ImplFn} {ex : Bool} {ps qs : List Sem} (h : LeL LeS ps qs) (b k : Nat) (c : Ctx) :
    (iteration fn ex ps b k c).le (iteration fn ex qs b k c) := by
  unfold iteration
  rcases childLoop_le (ex := ex) h 0 c with h' | h'
  · rw [h']; exact .bot _
  · rw [h', h.length]; exact .refl _

theorem parentLoop_le {u : Bool} {f g : Nat → Ctx → Out IterEnd} (h : ∀ k c, (f k c).le (g k c)) (m m' : Nat)
    (hm : if u = true then m ≤ m' else m = m') (k : Nat) (c : Ctx) :
    (parentLoop u f m k c).le (parentLoop u g m' k c) := by
  induction m generalizing m' k c with
  | zero =>
    cases u with
    | true => simp [parentLoop]; exact .bot _
    | false =>
      simp at hm; subst hm
      simp [parentLoop]; exact .refl _
  | succ m ih =>
    obtain ⟨m'', rfl⟩ : ∃ m'', m' = m'' + 1 := by
      cases m' with
      | zero => cases u <;> simp at hm
      | succ m' => exact ⟨m', rfl⟩
    have hm' : if u = true then m ≤ m'' else m = m'' := by
      cases u <;> simp at hm ⊢ <;> exact hm
    unfold parentLoop
    rcases h k c with h' | h'
    · rw [h']; exact .bot _
    · rw [h']
      split
      · exact .refl _
      · exact .refl _
      · exact .refl _
      · exact .refl _
      · exact ih _ hm' _ _

theorem applyTrs_le {ts us : List TSem} (h : LeL LeT ts us) (c : Ctx) (asts : List Ast) :
    (applyTrs c ts asts).le (applyTrs c us asts) := by
  induction h generalizing asts with
  | nil => exact .refl _
  | @cons t u ts us htu _ ih =>
    unfold applyTrs
    rcases htu c asts with h | h
    · rw [h]; exact .bot _
    · rw [h]
      split
      · exact .refl _
      · exact .refl _
      · exact ih _
      · exact .refl _

/-- The same for optional transformer lists. -/
inductive LeO : Option (List TSem) → Option (List TSem) → Prop where
  | none : LeO none none
  | some {ts us : List TSem} : LeL LeT ts us → LeO (some ts) (some us)

theorem applyTransforms_le {tr tr' : Option (List TSem)} (h : LeO tr tr') (c o : Ctx) :
    (applyTransforms tr c o).le (applyTransforms tr' c o) := by
  cases h with
  | none => exact .refl _
  | some h =>
    unfold applyTransforms
    simp only
    split
    · exact .refl _
    · rcases applyTrs_le h c (o.stack.drop c.stack.length) with h' | h'
      · rw [h']; exact .bot _
      · rw [h']; exact .refl _

theorem baseParser_le {fuel fuel' : Nat} (hfuel : fuel ≤ fuel') {cls : String} {fn : Option ImplFn}
    {props : List PropItem} {ps qs : List Sem} (h : LeL LeS ps qs) {tr tr' : Option (List TSem)} (ht : LeO tr tr') :
    LeS (baseParser fuel cls fn props ps tr) (baseParser fuel' cls fn props qs tr') := by
  intro c
  unfold baseParser
  simp only
  have : (parentLoop (decide ((readProps props).qty.max < 0))
        (iteration fn (readProps props).thereExists ps c.stack.length)
        (if decide ((readProps props).qty.max < 0) = true then fuel else (readProps props).qty.max.toNat) 0
        { c with cls := cls, status := .matched }).le
      (parentLoop (decide ((readProps props).qty.max < 0))
        (iteration fn (readProps props).thereExists qs c.stack.length)
        (if decide ((readProps props).qty.max < 0) = true then fuel' else (readProps props).qty.max.toNat) 0
        { c with cls := cls, status := .matched }) := by
    refine parentLoop_le (fun k c => iteration_le h _ k c) _ _ ?_ 0 _
    split <;> simp [hfuel]
  rcases this with h' | h'
  · rw [h']; exact .bot _
  · rw [h']
    split
    · exact .refl _
    · exact .refl _
    · exact .refl _
    · rename_i n o _
      unfold afterLoop
      simp only
      split
      · exact .refl _
      · split
        · exact .refl _
        · exact .refl _
        · split
          · exact .refl _
          · exact applyTransforms_le ht _ _

theorem lightParser_le {cls : String} {p q : Sem} (h : LeS p q) : LeS (lightParser cls p) (lightParser cls q) := by
  intro c
  unfold lightParser
  rcases h c with h | h
  · rw [h]; exact .bot _
  · rw [h]; exact .refl _

theorem lookBehindLoop_le {neg : Bool} {p q : Sem} (h : LeS p q) (c : Ctx) (k : Nat) (i : Int) :
    (lookBehindLoop neg p c k i).le (lookBehindLoop neg q c k i) := by
  induction k generalizing i with
  | zero => exact .refl _
  | succ k ih =>
    unfold lookBehindLoop
    split
    · exact ih _
    · rcases h { c with pos := ((c.pos : Int) - i).toNat } with h' | h'
      · rw [h']; exact .bot _
      · rw [h']
        split
        · exact .refl _
        · exact .refl _
        · exact .refl _
        · split
          · exact .refl _
          · exact ih _

theorem lookBehindBase_le {neg : Bool} {a b : Int} {ps qs : List Sem} (h : LeL LeS ps qs) :
    LeS (lookBehindBase neg a b ps) (lookBehindBase neg a b qs) :=
  fun c => lookBehindLoop_le (baseParser_le (Nat.le_refl _) h .none) c _ _

/-- Guards equal and transformers pointwise. -/
def LeCase (a b : (List Ast → Bool) × List TSem) : Prop := a.1 = b.1 ∧ LeL LeT a.2 b.2

theorem matchFn_le {n : Int} {cs ds : List ((List Ast → Bool) × List TSem)} (h : LeL LeCase cs ds) :
    LeS (matchFn n cs) (matchFn n ds) := by
  induction h with
  | nil => exact fun _ => .refl _
  | @cons a b as bs hab _ ih =>
    obtain ⟨g, ts⟩ := a
    obtain ⟨g', us⟩ := b
    obtain ⟨hg, ht⟩ := hab
    simp only at hg ht
    subst hg
    intro c
    unfold matchFn
    split
    · simp only
      split
      · exact .refl _
      · rcases applyTrs_le ht { c with len := 0, status := .unmatched }
          (c.stack.drop ((c.stack.length : Int) - n).toNat) with h' | h'
        · rw [h']; exact .bot _
        · rw [h']; exact .refl _
    · exact ih c

theorem tryRules_le {ctx : Ctx} {asts : List Ast} {p : Nat} {rs ss : List Sem} (h : LeL LeS rs ss) :
    (tryRules ctx asts p rs).le (tryRules ctx asts p ss) := by
  induction h with
  | nil => exact .refl _
  | @cons r s rs ss hrs _ ih =>
    unfold tryRules
    rcases hrs { ctx with pos := p } with h | h
    · rw [h]; exact .bot _
    · rw [h]
      split
      · exact .refl _
      · exact .refl _
      · exact .refl _
      · split
        · exact ih
        · exact .refl _

theorem tryPositions_le {ctx : Ctx} {asts : List Ast} {rs ss : List Sem} (h : LeL LeS rs ss) (rtol : Bool) (k i : Nat) :
    (tryPositions ctx asts rs rtol k i).le (tryPositions ctx asts ss rtol k i) := by
  induction k generalizing i with
  | zero => exact .refl _
  | succ k ih =>
    unfold tryPositions
    rcases tryRules_le (ctx := ctx) (asts := asts) (p := if rtol then asts.length - i else i) h with h' | h'
    · rw [h']; exact .bot _
    · rw [h']
      split
      · exact ih _
      · exact .refl _

/-- Rules pointwise, direction equal. -/
def LePrec (a b : List Sem × Bool) : Prop := LeL LeS a.1 b.1 ∧ a.2 = b.2

theorem tryPrecedences_le {tag : Value} {asts : List Ast} {ps qs : List (List Sem × Bool)} (h : LeL LePrec ps qs) :
    (tryPrecedences tag asts ps).le (tryPrecedences tag asts qs) := by
  induction h with
  | nil => exact .refl _
  | @cons a b as bs hab _ ih =>
    obtain ⟨r, d⟩ := a
    obtain ⟨s, d'⟩ := b
    obtain ⟨hr, hd⟩ := hab
    simp only at hr hd
    subst hd
    unfold tryPrecedences
    rcases tryPositions_le (ctx := newObjCtx (astSliceSrc asts) tag) (asts := asts) hr d (asts.length + 1) 0 with h' | h'
    · rw [h']; exact .bot _
    · rw [h']
      split
      · exact ih
      · exact .refl _

theorem checkHolds_le {p q : Sem} (h : LeS p q) (tag : Value) (asts : List Ast) :
    (checkHolds p tag asts).le (checkHolds q tag asts) := by
  unfold checkHolds
  rcases h (newObjCtx (astSliceSrc asts) tag) with h | h
  · rw [h]; exact .bot _
  · rw [h]; exact .refl _

theorem productionLoop_le {ps qs : List (List Sem × Bool)} (h : LeL LePrec ps qs) {p q : Sem} (hc : LeS p q)
    (tag : Value) (n m : Nat) (hnm : n ≤ m) (asts : List Ast) :
    (productionLoop ps p tag n asts).le (productionLoop qs q tag m asts) := by
  induction n generalizing m asts with
  | zero => exact .bot _
  | succ n ih =>
    cases m with
    | zero => omega
    | succ m =>
      unfold productionLoop
      rcases tryPrecedences_le (tag := tag) (asts := asts) h with h' | h'
      · rw [h']; exact .bot _
      · rw [h']
        split
        · exact .refl _
        · exact .refl _
        · exact .refl _
        · rcases checkHolds_le hc tag asts with h'' | h''
          · rw [h'']; exact .bot _
          · rw [h'']; exact .refl _
        · rename_i asts' _
          rcases checkHolds_le hc tag asts' with h'' | h''
          · rw [h'']; exact .bot _
          · rw [h'']
            split
            · exact .refl _
            · exact .refl _
            · exact .refl _
            · exact ih m (by omega) _

theorem variadic_le {ts us : List TSem} (h : LeL LeT ts us) : LeO (variadic ts) (variadic us) := by
  cases h with
  | nil => exact .none
  | cons h h' => exact .some (.cons h h')

/-- More fuel, same or better result. -/
theorem run_le_succ (env : Env) (n : Nat) :
    (∀ g, LeS (run env n g) (run env (n + 1) g)) ∧ (∀ t, LeT (runTr env n t) (runTr env (n + 1) t)) := by
  induction n with
  | zero =>
    constructor
    · intro g c; simp only [run]; exact .bot _
    · intro t c asts; simp only [runTr]; exact .bot _
  | succ n ih =>
    obtain ⟨ihg, iht⟩ := ih
    have hl : ∀ gs : List Gram, LeL LeS (gs.map (run env n)) (gs.map (run env (n + 1))) :=
      fun gs => LeL.map _ _ gs ihg
    have htl : ∀ ts : List Tr, LeL LeT (ts.map (runTr env n)) (ts.map (runTr env (n + 1))) :=
      fun ts => LeL.map _ _ ts iht
    have hn : n ≤ n + 1 := by omega
    constructor
    · intro g
      cases g with
      | prim p => exact fun c => .refl _
      | flatGroup gs => exact baseParser_le (Nat.le_refl _) (hl gs) .none
      | group gs => exact baseParser_le (Nat.le_refl _) (hl gs) (.some (LeL.refl (fun _ _ _ => .refl _) _))
      | first gs => exact baseParser_le (Nat.le_refl _) (hl gs) .none
      | lookAhead gs => exact baseParser_le (Nat.le_refl _) (hl gs) .none
      | lookAheadN gs => exact baseParser_le (Nat.le_refl _) (hl gs) .none
      | lookBehind a b gs => exact lookBehindBase_le (hl gs)
      | lookBehindN a b gs => exact lookBehindBase_le (hl gs)
      | «repeat» t gs => exact baseParser_le hn (hl gs) .none
      | trans g trs => exact baseParser_le (Nat.le_refl _) (.cons (ihg g) .nil) (variadic_le (htl trs))
      | indirect i => exact lightParser_le (ihg (env i))
      | «match» k cases =>
        refine lightParser_le (matchFn_le (LeL.map _ _ cases ?_))
        exact fun c => ⟨rfl, htl c.2⟩
      | base cls fn props gs tr =>
        refine baseParser_le hn (hl gs) ?_
        cases tr with
        | none => exact .none
        | some ts => exact .some (htl ts)
    · intro t
      cases t with
      | fn f => exact fun _ _ => .refl _
      | production precs check =>
        intro c asts
        refine productionLoop_le (LeL.map _ _ precs ?_) (ihg check) _ n (n + 1) hn asts
        exact fun p => ⟨hl p.1, rfl⟩

theorem run_le (env : Env) {n m : Nat} (h : n ≤ m) (g : Gram) : LeS (run env n g) (run env m g) := by
  induction h with
  | refl => exact fun c => .refl _
  | step _ ih => exact fun c => (ih c).trans ((run_le_succ env _).1 g c)

theorem runTr_le (env : Env) {n m : Nat} (h : n ≤ m) (t : Tr) : LeT (runTr env n t) (runTr env m t) := by
  induction h with
  | refl => exact fun c _ => .refl _
  | step _ ih => exact fun c asts => (ih c asts).trans ((run_le_succ env _).2 t c asts)

/-- A completed run is the result with any larger fuel. -/
theorem run_stable {env : Env} {n m : Nat} {g : Gram} {c : Ctx} (h : n ≤ m) (hne : run env n g c ≠ .timeout) :
    run env m g c = run env n g c := by
  rcases run_le env h g c with h' | h'
  · exact absurd h' hne
  · exact h'.symm

theorem runTr_stable {env : Env} {n m : Nat} {t : Tr} {c : Ctx} {asts : List Ast} (h : n ≤ m)
    (hne : runTr env n t c asts ≠ .timeout) : runTr env m t c asts = runTr env n t c asts := by
  rcases runTr_le env h t c asts with h' | h'
  · exact absurd h' hne
  · exact h'.symm

end Takenoco
