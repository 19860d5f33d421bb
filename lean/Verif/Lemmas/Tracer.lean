import Verif.Spec.Tracer
/-
The engine with tracing agrees with the one without.
-/
namespace Takenoco
open Spec Trace

/-! ### Sequences of events -/

theorem Spec.Balanced.append {a b : List Event} (h : Balanced a) (h' : Balanced b) : Balanced (a ++ b) := by
  induction h with
  | nil => exact h'
  | frame i ctx out err hi _ _ ih => simpa using Balanced.frame i ctx out err hi ih

theorem Spec.Crashed.prepend {r : Panic} {a b : List Event} (h : Balanced a) (h' : Crashed r b) : Crashed r (a ++ b) := by
  cases h' with
  | here h' => exact .here (h.append h')
  | @frame before inner i ctx hb hi => simpa using Crashed.frame i ctx (h.append hb) hi

/-- The events of a computation with this outcome. -/
def Fitting {α : Type} : Out α → List Event → Prop
  | .ok _, l => Balanced l
  | .panic r, l => Crashed r l
  | .timeout, _ => True

/-- The computation has this outcome, and events that fit it, all of parsers with `Q`. -/
def Agrees {α : Type} (Q : Info → Prop) (x : M α) (y : Out α) : Prop :=
  ∀ s, (x s).1 = y ∧ ∃ l, (x s).2.events = s.events ++ l ∧ Fitting y l ∧ ∀ ev ∈ l, Q ev.info

section
variable {Q : Info → Prop}

theorem agrees_lift {α : Type} (y : Out α) : Agrees Q (lift y) y := fun s => ⟨rfl, [], by simp [lift], by
  cases y with
  | ok a => exact Balanced.nil
  | panic r => exact .here .nil
  | timeout => trivial, by simp⟩

theorem agrees_pure {α : Type} (a : α) : Agrees Q (pure a) (.ok a) := agrees_lift (.ok a)

/-- What remains to be shown for a sequence. -/
def Continues {α β : Type} (Q : Info → Prop) (y : Out α) (f : α → M β) (z : Out β) : Prop :=
  match y with
  | .ok a => Agrees Q (f a) z
  | .panic p => z = .panic p
  | .timeout => z = .timeout

theorem Agrees.step {α β : Type} {x : M α} {y : Out α} {f : α → M β} {z : Out β} (hx : Agrees Q x y)
    (h : Continues Q y f z) : Agrees Q (x >>= f) z := by
  intro s
  obtain ⟨h1, l, h2, h3, hq⟩ := hx s
  show (M.bind x f s).1 = z ∧ ∃ l, (M.bind x f s).2.events = s.events ++ l ∧ Fitting z l ∧ ∀ ev ∈ l, Q ev.info
  rcases hxs : x s with ⟨o, s'⟩
  rw [hxs] at h1 h2
  subst h1
  cases o with
  | ok a =>
    obtain ⟨h4, l', h5, h6, hq'⟩ := h s'
    simp only [M.bind, hxs]
    simp only at h2
    refine ⟨h4, l ++ l', by rw [h5, h2, List.append_assoc], ?_, fun ev hev => (List.mem_append.1 hev).elim (hq ev) (hq' ev)⟩
    cases z with
    | ok b => exact h3.append h6
    | panic r => exact Crashed.prepend h3 h6
    | timeout => trivial
  | panic r => cases (show z = .panic r from h); simp only [M.bind, hxs]; exact ⟨trivial, l, h2, h3, hq⟩
  | timeout => cases (show z = .timeout from h); simp only [M.bind, hxs]; exact ⟨trivial, l, h2, h3, hq⟩

theorem Agrees.step' {α β : Type} {x : M α} {y : Out α} {f : α → M β} {z : Out β} (hx : Agrees Q x y) (h1 : ∀ a, y = .ok a → Agrees Q (f a) z)
    (h2 : ∀ p, y = .panic p → z = .panic p) (h3 : y = .timeout → z = .timeout) : Agrees Q (x >>= f) z := by
  refine hx.step ?_
  cases y with
  | ok a => exact h1 a rfl
  | panic p => exact h2 p rfl
  | timeout => exact h3 rfl

/-- The parsers agree on every context. -/
def AgreesP (Q : Info → Prop) (p : Trace.Parser) (q : Sem) : Prop := ∀ ctx, Agrees Q (p ctx) (q ctx)
/-- The same for transformers. -/
def AgreesT (Q : Info → Prop) (p : Trace.Transformer) (q : TSem) : Prop := ∀ ctx asts, Agrees Q (p ctx asts) (q ctx asts)

theorem agrees_tracer {i : Info} (hi : Q i) {p : Trace.Parser} {q : Sem} (h : AgreesP Q p q) : AgreesP Q (tracer i p) q := by
  intro ctx s
  obtain ⟨h1, l, h2, h3, hq⟩ := h ctx { s with events := s.events ++ [.before i ctx] }
  unfold tracer
  rcases hp : p ctx { s with events := s.events ++ [.before i ctx] } with ⟨o, s'⟩
  rw [hp] at h1 h2
  simp only at h1 h2
  rw [← h1] at h3 ⊢
  cases o with
  | ok r =>
    refine ⟨rfl, .before i ctx :: l ++ [.after i r.1 r.2], by simp [h2], ?_, by simpa [Event.info, hi, or_imp, forall_and] using hq⟩
    exact Balanced.frame i ctx r.1 r.2 h3 .nil
  | panic r =>
    refine ⟨rfl, .before i ctx :: l ++ [.panic i ctx r], by simp [h2], ?_, by simpa [Event.info, hi, or_imp, forall_and] using hq⟩
    exact Crashed.frame (before := []) i ctx .nil h3
  | timeout => exact ⟨rfl, .before i ctx :: l, by simp [h2], trivial, by simpa [Event.info, hi] using hq⟩

theorem agrees_wrap {i : Option Info} (hi : ∀ j, i = some j → Q j) {p : Trace.Parser} {q : Sem} (h : AgreesP Q p q) : AgreesP Q (wrap i p) q := by
  cases i with
  | none => exact h
  | some i => exact agrees_tracer (hi _ rfl) h

/-- The elements of two lists are related one by one. -/
inductive Each {α β : Type} (R : α → β → Prop) : List α → List β → Prop where
  | nil : Each R [] []
  | cons {a : α} {b : β} {as : List α} {bs : List β} : R a b → Each R as bs → Each R (a :: as) (b :: bs)

theorem Each.length_eq {α β : Type} {R : α → β → Prop} {as : List α} {bs : List β} (h : Each R as bs) : as.length = bs.length := by
  induction h with
  | nil => rfl
  | cons _ _ ih => simp [ih]

/-! ### The engine -/

theorem agrees_light (cls : String) {p : Trace.Parser} {q : Sem} (h : AgreesP Q p q) : AgreesP Q (light cls p) (lightParser cls q) := by
  intro ctx
  refine (h ctx).step ?_
  unfold lightParser
  cases q ctx with
  | ok r => exact agrees_pure _
  | panic r => rfl
  | timeout => rfl

theorem agrees_childLoop (te : Bool) {cs : List Trace.Parser} {ds : List Sem} (h : Each (AgreesP Q) cs ds) :
    ∀ k ctx, Agrees Q (Trace.childLoop te cs k ctx) (Takenoco.childLoop te ds k ctx) := by
  induction h with
  | nil => intro k ctx; exact agrees_pure _
  | @cons c d cs ds hc _ ih =>
    intro k ctx
    rw [Trace.childLoop, Takenoco.childLoop]
    refine (hc ctx).step ?_
    cases d ctx with
    | panic r => rfl
    | timeout => rfl
    | ok r =>
      obtain ⟨o, err⟩ := r
      simp only [Continues]
      cases (fixStatus o err).status with
      | error => exact agrees_pure _
      | unmatched => cases te with
        | true => exact ih _ _
        | false => exact agrees_pure _
      | matched => cases te with
        | true => exact agrees_pure _
        | false => exact ih _ _

theorem agrees_iteration (fn : Option ImplFn) (te : Bool) {cs : List Trace.Parser} {ds : List Sem} (h : Each (AgreesP Q) cs ds)
    (bottom count : Nat) (saved : Ctx) : Agrees Q (Trace.iteration fn te cs bottom count saved) (Takenoco.iteration fn te ds bottom count saved) := by
  unfold Trace.iteration Takenoco.iteration
  refine (agrees_childLoop te h 0 saved).step ?_
  cases Takenoco.childLoop te ds 0 saved with
  | panic r => rfl
  | timeout => rfl
  | ok r =>
    cases r with
    | ret o e => exact agrees_pure _
    | unmatched => exact agrees_pure _
    | fell k out =>
      simp only [Continues, h.length_eq]
      split
      · exact agrees_pure _
      · refine (agrees_lift _).step ?_
        cases callFn fn k bottom { out with qty := count } with
        | panic r => rfl
        | timeout => rfl
        | ok r =>
          obtain ⟨out, err⟩ := r
          simp only [Continues]
          cases out.status <;> exact agrees_pure _

theorem agrees_parentLoop (ub : Bool) {b : Nat → Ctx → M IterEnd} {b' : Nat → Ctx → Out IterEnd} (h : ∀ n ctx, Agrees Q (b n ctx) (b' n ctx)) (k : Nat) :
    ∀ count ctx, Agrees Q (Trace.parentLoop ub b k count ctx) (Takenoco.parentLoop ub b' k count ctx) := by
  induction k with
  | zero =>
    intro count ctx
    rw [Trace.parentLoop, Takenoco.parentLoop]
    cases ub with
    | true => exact agrees_lift _
    | false => exact agrees_pure _
  | succ k ih =>
    intro count ctx
    rw [Trace.parentLoop, Takenoco.parentLoop]
    refine (h count ctx).step ?_
    cases b' count ctx with
    | panic r => rfl
    | timeout => rfl
    | ok r =>
      cases r with
      | ret o e => exact agrees_pure _
      | brk o => exact agrees_pure _
      | next o => exact ih _ _

theorem agrees_applyTrs (ctx : Ctx) {ts : List Trace.Transformer} {us : List TSem} (h : Each (AgreesT Q) ts us) :
    ∀ asts, Agrees Q (Trace.applyTrs ctx ts asts) (Takenoco.applyTrs ctx us asts) := by
  induction h with
  | nil => intro asts; exact agrees_pure _
  | @cons t u ts us ht _ ih =>
    intro asts
    rw [Trace.applyTrs, Takenoco.applyTrs]
    refine (ht ctx asts).step ?_
    cases u ctx asts with
    | panic r => rfl
    | timeout => rfl
    | ok r =>
      obtain ⟨asts', e⟩ := r
      cases e with
      | none => exact ih _
      | some e => exact agrees_pure _

/-- The transformers of a parser agree. -/
def AgreesO (Q : Info → Prop) : Option (List Trace.Transformer) → Option (List TSem) → Prop
  | none, none => True
  | some ts, some us => Each (AgreesT Q) ts us
  | _, _ => False

theorem agrees_applyTransforms {tr : Option (List Trace.Transformer)} {us : Option (List TSem)} (h : AgreesO Q tr us) (ctx out : Ctx) :
    Agrees Q (Trace.applyTransforms tr ctx out) (Takenoco.applyTransforms us ctx out) := by
  unfold Trace.applyTransforms Takenoco.applyTransforms
  match tr, us, h with
  | none, none, _ => exact agrees_pure _
  | some ts, some us, h =>
    simp only
    split
    · exact agrees_lift _
    · refine (agrees_applyTrs (us := us) ctx h _).step ?_
      cases Takenoco.applyTrs ctx us (out.stack.drop ctx.stack.length) with
      | panic r => rfl
      | timeout => rfl
      | ok r =>
        obtain ⟨asts', e⟩ := r
        cases e <;> exact agrees_pure _

theorem agrees_afterLoop (f : Flags) (fn : Option ImplFn) {tr : Option (List Trace.Transformer)} {us : Option (List TSem)} (h : AgreesO Q tr us)
    (ctx : Ctx) (count : Nat) (out : Ctx) : Agrees Q (Trace.afterLoop f fn tr ctx count out) (Takenoco.afterLoop f fn us ctx count out) := by
  unfold Trace.afterLoop Takenoco.afterLoop
  simp only
  split
  · exact agrees_pure _
  · refine (agrees_lift _).step' (fun a ha => ?_) (fun p hp => by rw [hp]) (fun ht => by rw [ht])
    rw [ha]
    simp only
    split
    · exact agrees_pure _
    · exact agrees_applyTransforms h _ _

theorem agrees_base (fuel : Nat) (cls : String) (fn : Option ImplFn) (props : List PropItem) {cs : List Trace.Parser} {ds : List Sem}
    (h : Each (AgreesP Q) cs ds) {tr : Option (List Trace.Transformer)} {us : Option (List TSem)} (ht : AgreesO Q tr us) :
    AgreesP Q (base fuel cls fn props cs tr) (baseParser fuel cls fn props ds us) := by
  intro ctx
  unfold base baseParser
  refine (agrees_parentLoop _ (fun n c => agrees_iteration fn _ h _ n c) _ _ _).step' (fun a ha => ?_) (fun p hp => by simp only [hp]) (fun ht => by simp only [ht])
  simp only [ha]
  cases a with
  | ret o e => exact agrees_pure _
  | done k o => exact agrees_afterLoop _ _ ht _ _ _

theorem agrees_lookBehindLoop (neg : Bool) {p : Trace.Parser} {q : Sem} (h : AgreesP Q p q) (ctx : Ctx) (k : Nat) :
    ∀ i, Agrees Q (Trace.lookBehindLoop neg p ctx k i) (Takenoco.lookBehindLoop neg q ctx k i) := by
  induction k with
  | zero => intro i; exact agrees_pure _
  | succ k ih =>
    intro i
    rw [Trace.lookBehindLoop, Takenoco.lookBehindLoop]
    split
    · exact ih _
    · refine (h _).step ?_
      cases q { ctx with pos := ((ctx.pos : Int) - i).toNat } with
      | panic r => rfl
      | timeout => rfl
      | ok r =>
        obtain ⟨out, e⟩ := r
        cases e with
        | some e => exact agrees_pure _
        | none =>
          simp only [Continues]
          split
          · split <;> exact agrees_pure _
          · exact ih _

theorem agrees_lookBehindBase {i : Option Info} (hi : ∀ j, i = some j → Q j) (neg : Bool) (a b : Int) {cs : List Trace.Parser} {ds : List Sem} (h : Each (AgreesP Q) cs ds) :
    AgreesP Q (Trace.lookBehindBase i neg a b cs) (Takenoco.lookBehindBase neg a b ds) := fun ctx =>
  agrees_lookBehindLoop neg (agrees_wrap hi (agrees_base 0 _ none _ h (tr := none) (us := none) trivial)) ctx _ _

/-- The cases of a `Match` agree. -/
def AgreesC (Q : Info → Prop) (c : (List Ast → Bool) × List Trace.Transformer) (d : (List Ast → Bool) × List TSem) : Prop := c.1 = d.1 ∧ Each (AgreesT Q) c.2 d.2

theorem agrees_matchFn (n : Int) {cs : List ((List Ast → Bool) × List Trace.Transformer)} {ds : List ((List Ast → Bool) × List TSem)}
    (h : Each (AgreesC Q) cs ds) : AgreesP Q (Trace.matchFn n cs) (Takenoco.matchFn n ds) := by
  induction h with
  | nil => intro ctx; exact agrees_pure _
  | @cons c d cs ds hc _ ih =>
    intro ctx
    obtain ⟨g, ts⟩ := c
    obtain ⟨g', us⟩ := d
    obtain ⟨rfl, hc⟩ := hc
    simp only at hc
    rw [Trace.matchFn, Takenoco.matchFn]
    simp only
    split
    · split
      · exact agrees_lift _
      · refine (agrees_applyTrs _ hc _).step' (fun a ha => ?_) (fun p hp => by simp only [hp]) (fun ht => by simp only [ht])
        simp only [ha]
        obtain ⟨asts', e⟩ := a
        cases e <;> exact agrees_pure _
    · exact ih ctx

theorem agrees_tryRules (astCtx : Ctx) (asts : List Ast) (p : Nat) {cs : List Trace.Parser} {ds : List Sem} (h : Each (AgreesP Q) cs ds) :
    Agrees Q (Trace.tryRules astCtx asts p cs) (Takenoco.tryRules astCtx asts p ds) := by
  induction h with
  | nil => exact agrees_pure _
  | @cons c d cs ds hc _ ih =>
    rw [Trace.tryRules, Takenoco.tryRules]
    refine (hc _).step ?_
    cases d { astCtx with pos := p } with
    | panic r => rfl
    | timeout => rfl
    | ok r =>
      obtain ⟨out, e⟩ := r
      cases e with
      | some e => exact agrees_pure _
      | none =>
        simp only [Continues]
        split
        · exact ih
        · split
          · exact agrees_lift _
          · exact agrees_pure _

theorem agrees_tryPositions (astCtx : Ctx) (asts : List Ast) {cs : List Trace.Parser} {ds : List Sem} (h : Each (AgreesP Q) cs ds) (rtol : Bool) (k : Nat) :
    ∀ i, Agrees Q (Trace.tryPositions astCtx asts cs rtol k i) (Takenoco.tryPositions astCtx asts ds rtol k i) := by
  induction k with
  | zero => intro i; exact agrees_pure _
  | succ k ih =>
    intro i
    rw [Trace.tryPositions, Takenoco.tryPositions]
    refine (agrees_tryRules astCtx asts _ h).step ?_
    cases Takenoco.tryRules astCtx asts (if rtol = true then asts.length - i else i) ds with
    | panic r => rfl
    | timeout => rfl
    | ok r =>
      cases r with
      | noMatch => exact ih _
      | rewritten a => exact agrees_pure _
      | err e => exact agrees_pure _

/-- The precedences of a `ProductionRule` agree. -/
def AgreesR (Q : Info → Prop) (c : List Trace.Parser × Bool) (d : List Sem × Bool) : Prop := Each (AgreesP Q) c.1 d.1 ∧ c.2 = d.2

theorem agrees_tryPrecedences (tag : Value) (asts : List Ast) {cs : List (List Trace.Parser × Bool)} {ds : List (List Sem × Bool)}
    (h : Each (AgreesR Q) cs ds) : Agrees Q (Trace.tryPrecedences tag asts cs) (Takenoco.tryPrecedences tag asts ds) := by
  induction h with
  | nil => exact agrees_pure _
  | @cons c d cs ds hc _ ih =>
    obtain ⟨c, r⟩ := c
    obtain ⟨d, r'⟩ := d
    obtain ⟨hc, hr⟩ := hc
    simp only at hc hr
    subst hr
    rw [Trace.tryPrecedences, Takenoco.tryPrecedences]
    refine (agrees_tryPositions _ asts hc r _ 0).step' (fun a ha => ?_) (fun p hp => by rw [hp]) (fun ht => by rw [ht])
    rw [ha]
    cases a with
    | noMatch => exact ih
    | rewritten a => exact agrees_pure _
    | err e => exact agrees_pure _

theorem agrees_checkHolds {p : Trace.Parser} {q : Sem} (h : AgreesP Q p q) (tag : Value) (asts : List Ast) :
    Agrees Q (Trace.checkHolds p tag asts) (Takenoco.checkHolds q tag asts) := by
  unfold Trace.checkHolds Takenoco.checkHolds
  refine (h _).step' (fun a ha => ?_) (fun p hp => by rw [hp]) (fun ht => by rw [ht])
  rw [ha]
  exact agrees_pure _

theorem agrees_productionLoop {cs : List (List Trace.Parser × Bool)} {ds : List (List Sem × Bool)} (h : Each (AgreesR Q) cs ds) {p : Trace.Parser} {q : Sem}
    (hp : AgreesP Q p q) (tag : Value) (n : Nat) : ∀ asts, Agrees Q (Trace.productionLoop cs p tag n asts) (Takenoco.productionLoop ds q tag n asts) := by
  induction n with
  | zero => intro asts; exact agrees_lift _
  | succ n ih =>
    intro asts
    rw [Trace.productionLoop, Takenoco.productionLoop]
    refine (agrees_tryPrecedences tag asts h).step ?_
    cases Takenoco.tryPrecedences tag asts ds with
    | panic r => rfl
    | timeout => rfl
    | ok r =>
      cases r with
      | err e => exact agrees_pure _
      | noMatch =>
        refine (agrees_checkHolds hp tag asts).step ?_
        cases Takenoco.checkHolds q tag asts with
        | panic r => rfl
        | timeout => rfl
        | ok b => cases b <;> exact agrees_pure _
      | rewritten a =>
        simp only [Continues]
        refine (agrees_checkHolds hp tag a).step ?_
        cases Takenoco.checkHolds q tag a with
        | panic r => rfl
        | timeout => rfl
        | ok b => cases b with
          | true => exact agrees_pure _
          | false => exact ih _

/-! ### Grammars -/

theorem plainList_eq (gs : List TGram) : plainList gs = gs.map TGram.plain := by
  induction gs with
  | nil => rfl
  | cons g gs ih => rw [plainList, ih]; rfl

theorem plainTrs_eq (ts : List TTr) : plainTrs ts = ts.map TTr.plain := by
  induction ts with
  | nil => rfl
  | cons g gs ih => rw [plainTrs, ih]; rfl

theorem plainCases_eq (cs : List ((List Ast → Bool) × List TTr)) : plainCases cs = cs.map fun c => (c.1, c.2.map TTr.plain) := by
  induction cs with
  | nil => rfl
  | cons c cs ih => obtain ⟨g, ts⟩ := c; rw [plainCases, ih, plainCase, plainTrs_eq]; rfl

theorem plainPrecs_eq (cs : List (List TGram × Bool)) : plainPrecs cs = cs.map fun c => (c.1.map TGram.plain, c.2) := by
  induction cs with
  | nil => rfl
  | cons c cs ih => obtain ⟨g, ts⟩ := c; rw [plainPrecs, ih, plainPrec, plainList_eq]; rfl

theorem each_map {α β γ : Type} {R : β → γ → Prop} {f : α → β} {g : α → γ} (l : List α) (h : ∀ a ∈ l, R (f a) (g a)) : Each R (l.map f) (l.map g) := by
  induction l with
  | nil => exact .nil
  | cons a l ih => exact .cons (h a (by simp)) (ih fun b hb => h b (by simp [hb]))

theorem allList_mem {P : TGram → Prop} {gs : List TGram} (h : AllList P gs) : ∀ g ∈ gs, g.All P := by
  induction gs with
  | nil => simp
  | cons g gs ih => obtain ⟨h1, h2⟩ := h; simp only [List.mem_cons]; rintro x (rfl | hx); exact h1; exact ih h2 x hx

theorem allTrs_mem {P : TGram → Prop} {ts : List TTr} (h : AllTrs P ts) : ∀ t ∈ ts, t.All P := by
  induction ts with
  | nil => simp
  | cons g gs ih => obtain ⟨h1, h2⟩ := h; simp only [List.mem_cons]; rintro x (rfl | hx); exact h1; exact ih h2 x hx

theorem allCases_mem {P : TGram → Prop} {cs : List ((List Ast → Bool) × List TTr)} (h : AllCases P cs) : ∀ c ∈ cs, AllTrs P c.2 := by
  induction cs with
  | nil => simp
  | cons c cs ih =>
    obtain ⟨c1, c2⟩ := c
    obtain ⟨h1, h2⟩ := h; simp only [List.mem_cons]; rintro x (rfl | hx); exact h1; exact ih h2 x hx

theorem allPrecs_mem {P : TGram → Prop} {ps : List (List TGram × Bool)} (h : AllPrecs P ps) : ∀ p ∈ ps, AllList P p.1 := by
  induction ps with
  | nil => simp
  | cons c cs ih =>
    obtain ⟨c1, c2⟩ := c
    obtain ⟨h1, h2⟩ := h; simp only [List.mem_cons]; rintro x (rfl | hx); exact h1; exact ih h2 x hx

theorem agrees_run {tenv : TEnv} {env : Env} (he : ∀ name k, (tenv name k).plain = env name) (hw : ∀ name k, Wraps Q (tenv name k)) (n : Nat) :
    (∀ g : TGram, Wraps Q g → AgreesP Q (g.run tenv n) (run env n g.plain)) ∧
    (∀ t : TTr, t.All (fun g => ∀ i, g.info = some i → Q i) → AgreesT Q (t.run tenv n) (runTr env n t.plain)) := by
  induction n with
  | zero => exact ⟨fun g _ ctx => agrees_lift _, fun t _ ctx asts => agrees_lift _⟩
  | succ n ih =>
    obtain ⟨ihg, iht⟩ := ih
    have hl : ∀ gs : List TGram, AllList (fun g => ∀ i, g.info = some i → Q i) gs →
        Each (AgreesP Q) (gs.map (TGram.run tenv n)) ((plainList gs).map (run env n)) := fun gs h => by
      rw [plainList_eq, List.map_map]; exact each_map gs fun g hg => ihg g (allList_mem h g hg)
    have ht : ∀ ts : List TTr, AllTrs (fun g => ∀ i, g.info = some i → Q i) ts →
        Each (AgreesT Q) (ts.map (TTr.run tenv n)) ((plainTrs ts).map (runTr env n)) := fun ts h => by
      rw [plainTrs_eq, List.map_map]; exact each_map ts fun t ht => iht t (allTrs_mem h t ht)
    constructor
    · intro g hg
      rw [TGram.run.eq_def, run.eq_def]
      cases g with
      | prim i cls p => exact agrees_wrap hg fun ctx => agrees_lift _
      | flatGroup i gs => exact agrees_wrap hg.1 (agrees_base 0 _ none _ (hl gs hg.2) trivial)
      | group i gs => exact agrees_wrap hg.1 (agrees_base 0 _ none _ (hl gs hg.2) (tr := some _) (us := some _) (.cons (fun ctx asts => agrees_lift _) .nil))
      | first i gs => exact agrees_wrap hg.1 (agrees_base 0 _ none _ (hl gs hg.2) trivial)
      | lookAhead i gs => exact agrees_wrap hg.1 (agrees_base 0 _ none _ (hl gs hg.2) trivial)
      | lookAheadN i gs => exact agrees_wrap hg.1 (agrees_base 0 _ none _ (hl gs hg.2) trivial)
      | lookBehind i a b gs => exact agrees_lookBehindBase hg.1 false a b (hl gs hg.2)
      | lookBehindN i a b gs => exact agrees_lookBehindBase hg.1 true a b (hl gs hg.2)
      | «repeat» i t gs => exact agrees_wrap hg.1 (agrees_base n _ none _ (hl gs hg.2) trivial)
      | trans i g trs =>
        refine agrees_wrap hg.1 (agrees_base 0 _ none _ (.cons (ihg g hg.2.1) .nil) ?_)
        have h := ht trs hg.2.2
        simp only [variadic, List.isEmpty_map]
        cases trs with
        | nil => trivial
        | cons t ts => exact h
      | indirect i name =>
        refine agrees_wrap hg (agrees_light _ fun ctx s => ?_)
        have := ihg (tenv name s.clock) (hw _ _) ctx { s with clock := s.clock + 1 }
        rwa [he] at this
      | «match» i k cs =>
        refine agrees_wrap hg.1 (agrees_light _ (agrees_matchFn k ?_))
        show Each (AgreesC Q) _ ((plainCases cs).map _)
        rw [plainCases_eq, List.map_map]
        refine each_map cs fun c hc => ⟨rfl, ?_⟩
        have := ht c.2 (allCases_mem hg.2 c hc)
        rw [plainTrs_eq] at this
        exact this
      | base i cls fn props gs tr =>
        refine agrees_wrap hg.1 (agrees_base n _ fn props (hl gs hg.2.1) ?_)
        cases tr with
        | none => trivial
        | some ts => exact ht ts hg.2.2
      | debug i scope pt gs => exact agrees_wrap hg.1 (agrees_base n _ none _ (hl gs hg.2) trivial)
    · intro t h
      rw [TTr.run.eq_def, runTr.eq_def]
      cases t with
      | fn f => exact fun ctx asts => agrees_lift _
      | production precs check =>
        refine fun ctx asts => agrees_productionLoop ?_ (ihg check h.2) _ _ _
        show Each (AgreesR Q) _ ((plainPrecs precs).map _)
        rw [plainPrecs_eq, List.map_map]
        refine each_map precs fun c hc => ⟨?_, rfl⟩
        have := hl c.1 (allPrecs_mem h.1 c hc)
        rw [plainList_eq] at this
        exact this

end

/-! ### Building -/

/-- The state is as before, except that the tracking number may have grown. -/
def Restored (st st' : Trace.State) : Prop := st'.enabled = st.enabled ∧ st'.scope = st.scope ∧ st'.pt = st.pt ∧ st.no ≤ st'.no

theorem Restored.trans {a b c : Trace.State} (h : Restored a b) (h' : Restored b c) : Restored a c :=
  ⟨h'.1.trans h.1, h'.2.1.trans h.2.1, h'.2.2.1.trans h.2.2.1, Nat.le_trans h.2.2.2 h'.2.2.2⟩

theorem mark_restored (cls : String) (st : Trace.State) : Restored st (mark cls st).2 := by
  unfold mark Restored
  split <;> simp

mutual
theorem build_spec (g : TGram) (st : Trace.State) : (g.build st).1.plain = g.plain ∧ Restored st (g.build st).2 := by
  cases g with
  | prim i cls p =>
    cases cls with
    | none => exact ⟨rfl, rfl, rfl, rfl, Nat.le_refl _⟩
    | some cls => exact ⟨rfl, mark_restored _ _⟩
  | flatGroup i gs => have h := buildList_spec gs st; exact ⟨by simp only [TGram.build, TGram.plain, h.1], h.2.trans (mark_restored _ _)⟩
  | group i gs => have h := buildList_spec gs st; exact ⟨by simp only [TGram.build, TGram.plain, h.1], h.2.trans (mark_restored _ _)⟩
  | first i gs => have h := buildList_spec gs st; exact ⟨by simp only [TGram.build, TGram.plain, h.1], h.2.trans (mark_restored _ _)⟩
  | lookAhead i gs => have h := buildList_spec gs st; exact ⟨by simp only [TGram.build, TGram.plain, h.1], h.2.trans (mark_restored _ _)⟩
  | lookAheadN i gs => have h := buildList_spec gs st; exact ⟨by simp only [TGram.build, TGram.plain, h.1], h.2.trans (mark_restored _ _)⟩
  | lookBehind i a b gs => have h := buildList_spec gs st; exact ⟨by simp only [TGram.build, TGram.plain, h.1], h.2.trans (mark_restored _ _)⟩
  | lookBehindN i a b gs => have h := buildList_spec gs st; exact ⟨by simp only [TGram.build, TGram.plain, h.1], h.2.trans (mark_restored _ _)⟩
  | «repeat» i t gs => have h := buildList_spec gs st; exact ⟨by simp only [TGram.build, TGram.plain, h.1], h.2.trans (mark_restored _ _)⟩
  | trans i g trs =>
    have h := build_spec g st
    have h' := buildTrs_spec trs (g.build st).2
    exact ⟨by simp only [TGram.build, TGram.plain, h.1, h'.1], (h.2.trans h'.2).trans (mark_restored _ _)⟩
  | indirect i name => exact ⟨rfl, mark_restored _ _⟩
  | «match» i n cs => have h := buildCases_spec cs st; exact ⟨by simp only [TGram.build, TGram.plain, h.1], h.2.trans (mark_restored _ _)⟩
  | base i cls fn props gs tr =>
    have h := buildList_spec gs st
    have h' := buildOpt_spec tr (buildList gs st).2
    exact ⟨by simp only [TGram.build, TGram.plain, h.1, h'.1], (h.2.trans h'.2).trans (mark_restored _ _)⟩
  | debug i scope pt gs =>
    have h := buildList_spec gs (debugOpen st scope pt).2
    have h2 := h.2.trans (mark_restored ":Base:DebugTrace" _)
    exact ⟨by simp only [TGram.build, TGram.plain, h.1], rfl, rfl, rfl, h2.2.2.2⟩

theorem buildList_spec (gs : List TGram) (st : Trace.State) : plainList (buildList gs st).1 = plainList gs ∧ Restored st (buildList gs st).2 := by
  cases gs with
  | nil => exact ⟨rfl, rfl, rfl, rfl, Nat.le_refl _⟩
  | cons g gs =>
    have h := build_spec g st
    have h' := buildList_spec gs (g.build st).2
    exact ⟨by simp only [buildList, plainList, h.1, h'.1], h.2.trans h'.2⟩

theorem buildTr_spec (t : TTr) (st : Trace.State) : (t.build st).1.plain = t.plain ∧ Restored st (t.build st).2 := by
  cases t with
  | fn t => exact ⟨rfl, rfl, rfl, rfl, Nat.le_refl _⟩
  | production precs check =>
    have h := buildPrecs_spec precs st
    have h' := build_spec check (buildPrecs precs st).2
    exact ⟨by simp only [TTr.build, TTr.plain, h.1, h'.1], h.2.trans h'.2⟩

theorem buildTrs_spec (ts : List TTr) (st : Trace.State) : plainTrs (buildTrs ts st).1 = plainTrs ts ∧ Restored st (buildTrs ts st).2 := by
  cases ts with
  | nil => exact ⟨rfl, rfl, rfl, rfl, Nat.le_refl _⟩
  | cons t ts =>
    have h := buildTr_spec t st
    have h' := buildTrs_spec ts (t.build st).2
    exact ⟨by simp only [buildTrs, plainTrs, h.1, h'.1], h.2.trans h'.2⟩

theorem buildOpt_spec (tr : Option (List TTr)) (st : Trace.State) : plainOpt (buildOpt tr st).1 = plainOpt tr ∧ Restored st (buildOpt tr st).2 := by
  cases tr with
  | none => exact ⟨rfl, rfl, rfl, rfl, Nat.le_refl _⟩
  | some ts => have h := buildTrs_spec ts st; exact ⟨by simp only [buildOpt, plainOpt, h.1], h.2⟩

theorem buildCase_spec (c : (List Ast → Bool) × List TTr) (st : Trace.State) : plainCase (buildCase c st).1 = plainCase c ∧ Restored st (buildCase c st).2 := by
  match c with
  | (g, ts) => have h := buildTrs_spec ts st; exact ⟨by simp only [buildCase, plainCase, h.1], h.2⟩

theorem buildCases_spec (cs : List ((List Ast → Bool) × List TTr)) (st : Trace.State) :
    plainCases (buildCases cs st).1 = plainCases cs ∧ Restored st (buildCases cs st).2 := by
  cases cs with
  | nil => exact ⟨rfl, rfl, rfl, rfl, Nat.le_refl _⟩
  | cons c cs =>
    have h := buildCase_spec c st
    have h' := buildCases_spec cs (buildCase c st).2
    exact ⟨by simp only [buildCases, plainCases, h.1, h'.1], h.2.trans h'.2⟩

theorem buildPrec_spec (p : List TGram × Bool) (st : Trace.State) : plainPrec (buildPrec p st).1 = plainPrec p ∧ Restored st (buildPrec p st).2 := by
  match p with
  | (gs, r) => have h := buildList_spec gs st; exact ⟨by simp only [buildPrec, plainPrec, h.1], h.2⟩

theorem buildPrecs_spec (ps : List (List TGram × Bool)) (st : Trace.State) :
    plainPrecs (buildPrecs ps st).1 = plainPrecs ps ∧ Restored st (buildPrecs ps st).2 := by
  cases ps with
  | nil => exact ⟨rfl, rfl, rfl, rfl, Nat.le_refl _⟩
  | cons p ps =>
    have h := buildPrec_spec p st
    have h' := buildPrecs_spec ps (buildPrec p st).2
    exact ⟨by simp only [buildPrecs, plainPrecs, h.1, h'.1], h.2.trans h'.2⟩
end

/-! ### Tracking numbers -/

/-- `l` are the numbers that were given out between the two states. -/
def Given (l : List Nat) (st st' : Trace.State) : Prop := ∃ k, l = List.range' (st.no + 1) k ∧ st'.no = st.no + k

theorem Given.nil {st : Trace.State} : Given [] st st := ⟨0, rfl, rfl⟩

theorem Given.trans {a b : List Nat} {st st' st'' : Trace.State} (h : Given a st st') (h' : Given b st' st'') : Given (a ++ b) st st'' := by
  obtain ⟨k, rfl, h2⟩ := h
  obtain ⟨m, rfl, h4⟩ := h'
  refine ⟨k + m, ?_, by omega⟩
  rw [h2, ← List.range'_append_1, show st.no + 1 + k = st.no + k + 1 by omega]

theorem mark_numbers (cls : String) (st : Trace.State) : Given (numberOf (mark cls st).1) st (mark cls st).2 := by
  unfold mark
  split
  · exact ⟨1, rfl, rfl⟩
  · exact ⟨0, rfl, rfl⟩

mutual
theorem build_numbers (g : TGram) (st : Trace.State) : Given (g.build st).1.numbers st (g.build st).2 := by
  cases g with
  | prim i cls p =>
    cases cls with
    | none => exact .nil
    | some cls => exact mark_numbers _ _
  | flatGroup i gs => exact (buildList_numbers gs st).trans (mark_numbers _ _)
  | group i gs => exact (buildList_numbers gs st).trans (mark_numbers _ _)
  | first i gs => exact (buildList_numbers gs st).trans (mark_numbers _ _)
  | lookAhead i gs => exact (buildList_numbers gs st).trans (mark_numbers _ _)
  | lookAheadN i gs => exact (buildList_numbers gs st).trans (mark_numbers _ _)
  | lookBehind i a b gs => exact (buildList_numbers gs st).trans (mark_numbers _ _)
  | lookBehindN i a b gs => exact (buildList_numbers gs st).trans (mark_numbers _ _)
  | «repeat» i t gs => exact (buildList_numbers gs st).trans (mark_numbers _ _)
  | trans i g trs => exact ((build_numbers g st).trans (buildTrs_numbers trs _)).trans (mark_numbers _ _)
  | indirect i name => exact mark_numbers _ _
  | «match» i n cs => exact (buildCases_numbers cs st).trans (mark_numbers _ _)
  | base i cls fn props gs tr => exact ((buildList_numbers gs st).trans (buildOpt_numbers tr _)).trans (mark_numbers _ _)
  | debug i scope pt gs => exact (buildList_numbers gs (debugOpen st scope pt).2).trans (mark_numbers _ _)

theorem buildList_numbers (gs : List TGram) (st : Trace.State) : Given (numbersList (buildList gs st).1) st (buildList gs st).2 := by
  cases gs with
  | nil => exact .nil
  | cons g gs => exact (build_numbers g st).trans (buildList_numbers gs _)

theorem buildTr_numbers (t : TTr) (st : Trace.State) : Given (t.build st).1.numbers st (t.build st).2 := by
  cases t with
  | fn t => exact .nil
  | production precs check => exact (buildPrecs_numbers precs st).trans (build_numbers check _)

theorem buildTrs_numbers (ts : List TTr) (st : Trace.State) : Given (numbersTrs (buildTrs ts st).1) st (buildTrs ts st).2 := by
  cases ts with
  | nil => exact .nil
  | cons t ts => exact (buildTr_numbers t st).trans (buildTrs_numbers ts _)

theorem buildOpt_numbers (tr : Option (List TTr)) (st : Trace.State) : Given (numbersOpt (buildOpt tr st).1) st (buildOpt tr st).2 := by
  cases tr with
  | none => exact .nil
  | some ts => exact buildTrs_numbers ts st

theorem buildCase_numbers (c : (List Ast → Bool) × List TTr) (st : Trace.State) : Given (numbersCase (buildCase c st).1) st (buildCase c st).2 := by
  match c with
  | (g, ts) => exact buildTrs_numbers ts st

theorem buildCases_numbers (cs : List ((List Ast → Bool) × List TTr)) (st : Trace.State) :
    Given (numbersCases (buildCases cs st).1) st (buildCases cs st).2 := by
  cases cs with
  | nil => exact .nil
  | cons c cs => exact (buildCase_numbers c st).trans (buildCases_numbers cs _)

theorem buildPrec_numbers (p : List TGram × Bool) (st : Trace.State) : Given (numbersPrec (buildPrec p st).1) st (buildPrec p st).2 := by
  match p with
  | (gs, r) => exact buildList_numbers gs st

theorem buildPrecs_numbers (ps : List (List TGram × Bool)) (st : Trace.State) :
    Given (numbersPrecs (buildPrecs ps st).1) st (buildPrecs ps st).2 := by
  cases ps with
  | nil => exact .nil
  | cons p ps => exact (buildPrec_numbers p st).trans (buildPrecs_numbers ps _)
end

/-! ### What is wrapped -/

/-- How parsers are wrapped when they are built with the tracer in this state. -/
def Marked (e : Bool) (scope : String) (pt : Nat) (g : TGram) : Prop :=
  g.info.map (fun i => (i.pt, i.scope, i.cls)) = if e then g.className.map fun cls => (pt, scope, cls) else none

/-- The tracer is in this state. -/
def IsIn (e : Bool) (scope : String) (pt : Nat) (st : Trace.State) : Prop := st.enabled = e ∧ st.scope = scope ∧ st.pt = pt

section
variable {e : Bool} {scope : String} {pt : Nat}

theorem mark_marked {cls : String} {st : Trace.State} (h : IsIn e scope pt st) :
    (mark cls st).1.map (fun i => (i.pt, i.scope, i.cls)) = (if e then some (pt, scope, cls) else none) ∧ IsIn e scope pt (mark cls st).2 ∧
      (e = false → (mark cls st).2 = st) := by
  obtain ⟨rfl, rfl, rfl⟩ := h
  unfold mark IsIn
  split <;> simp_all

/-- Not a `DebugTrace`. -/
def Free (g : TGram) : Prop := g.isDebug = false

mutual
theorem build_marked (g : TGram) (st : Trace.State) (h : IsIn e scope pt st) (hf : g.All Free) :
    (g.build st).1.All (Marked e scope pt) ∧ IsIn e scope pt (g.build st).2 ∧ (e = false → (g.build st).2 = st) := by
  cases g with
  | prim i cls p =>
    cases cls with
    | none => exact ⟨by show Marked _ _ _ _; simp [Marked, TGram.info, TGram.className], h, fun _ => rfl⟩
    | some cls => exact mark_marked h
  | flatGroup i gs =>
    obtain ⟨h1, h2, h3⟩ := buildList_marked gs st h hf.2
    obtain ⟨m1, m2, m3⟩ := mark_marked (cls := ":base:FlatGroup") h2
    exact ⟨⟨m1, h1⟩, m2, fun he => (m3 he).trans (h3 he)⟩
  | group i gs =>
    obtain ⟨h1, h2, h3⟩ := buildList_marked gs st h hf.2
    obtain ⟨m1, m2, m3⟩ := mark_marked (cls := ":base:Group") h2
    exact ⟨⟨m1, h1⟩, m2, fun he => (m3 he).trans (h3 he)⟩
  | first i gs =>
    obtain ⟨h1, h2, h3⟩ := buildList_marked gs st h hf.2
    obtain ⟨m1, m2, m3⟩ := mark_marked (cls := ":base:First") h2
    exact ⟨⟨m1, h1⟩, m2, fun he => (m3 he).trans (h3 he)⟩
  | lookAhead i gs =>
    obtain ⟨h1, h2, h3⟩ := buildList_marked gs st h hf.2
    obtain ⟨m1, m2, m3⟩ := mark_marked (cls := ":base:LookAhead") h2
    exact ⟨⟨m1, h1⟩, m2, fun he => (m3 he).trans (h3 he)⟩
  | lookAheadN i gs =>
    obtain ⟨h1, h2, h3⟩ := buildList_marked gs st h hf.2
    obtain ⟨m1, m2, m3⟩ := mark_marked (cls := ":base:LookAheadN") h2
    exact ⟨⟨m1, h1⟩, m2, fun he => (m3 he).trans (h3 he)⟩
  | lookBehind i a b gs =>
    obtain ⟨h1, h2, h3⟩ := buildList_marked gs st h hf.2
    obtain ⟨m1, m2, m3⟩ := mark_marked (cls := ":base:LookBehind") h2
    exact ⟨⟨m1, h1⟩, m2, fun he => (m3 he).trans (h3 he)⟩
  | lookBehindN i a b gs =>
    obtain ⟨h1, h2, h3⟩ := buildList_marked gs st h hf.2
    obtain ⟨m1, m2, m3⟩ := mark_marked (cls := ":base:LookBehindN") h2
    exact ⟨⟨m1, h1⟩, m2, fun he => (m3 he).trans (h3 he)⟩
  | «repeat» i t gs =>
    obtain ⟨h1, h2, h3⟩ := buildList_marked gs st h hf.2
    obtain ⟨m1, m2, m3⟩ := mark_marked (cls := ":base:Repeat") h2
    exact ⟨⟨m1, h1⟩, m2, fun he => (m3 he).trans (h3 he)⟩
  | trans i g trs =>
    obtain ⟨h1, h2, h3⟩ := build_marked g st h hf.2.1
    obtain ⟨t1, t2, t3⟩ := buildTrs_marked trs _ h2 hf.2.2
    obtain ⟨m1, m2, m3⟩ := mark_marked (cls := ":base:Trans") t2
    exact ⟨⟨m1, h1, t1⟩, m2, fun he => (m3 he).trans ((t3 he).trans (h3 he))⟩
  | indirect i name => exact mark_marked h
  | «match» i n cs =>
    obtain ⟨h1, h2, h3⟩ := buildCases_marked cs st h hf.2
    obtain ⟨m1, m2, m3⟩ := mark_marked (cls := "Match") h2
    exact ⟨⟨m1, h1⟩, m2, fun he => (m3 he).trans (h3 he)⟩
  | base i cls fn props gs tr =>
    obtain ⟨h1, h2, h3⟩ := buildList_marked gs st h hf.2.1
    obtain ⟨t1, t2, t3⟩ := buildOpt_marked tr _ h2 hf.2.2
    obtain ⟨m1, m2, m3⟩ := mark_marked (cls := cls) t2
    exact ⟨⟨m1, h1, t1⟩, m2, fun he => (m3 he).trans ((t3 he).trans (h3 he))⟩
  | debug i sc p gs => exact absurd hf.1 (by simp [Free, TGram.isDebug])

theorem buildList_marked (gs : List TGram) (st : Trace.State) (h : IsIn e scope pt st) (hf : AllList Free gs) :
    AllList (Marked e scope pt) (buildList gs st).1 ∧ IsIn e scope pt (buildList gs st).2 ∧ (e = false → (buildList gs st).2 = st) := by
  cases gs with
  | nil => exact ⟨trivial, h, fun _ => rfl⟩
  | cons g gs =>
    obtain ⟨h1, h2, h3⟩ := build_marked g st h hf.1
    obtain ⟨t1, t2, t3⟩ := buildList_marked gs _ h2 hf.2
    exact ⟨⟨h1, t1⟩, t2, fun he => (t3 he).trans (h3 he)⟩

theorem buildTr_marked (t : TTr) (st : Trace.State) (h : IsIn e scope pt st) (hf : t.All Free) :
    (t.build st).1.All (Marked e scope pt) ∧ IsIn e scope pt (t.build st).2 ∧ (e = false → (t.build st).2 = st) := by
  cases t with
  | fn t => exact ⟨trivial, h, fun _ => rfl⟩
  | production precs check =>
    obtain ⟨h1, h2, h3⟩ := buildPrecs_marked precs st h hf.1
    obtain ⟨t1, t2, t3⟩ := build_marked check _ h2 hf.2
    exact ⟨⟨h1, t1⟩, t2, fun he => (t3 he).trans (h3 he)⟩

theorem buildTrs_marked (ts : List TTr) (st : Trace.State) (h : IsIn e scope pt st) (hf : AllTrs Free ts) :
    AllTrs (Marked e scope pt) (buildTrs ts st).1 ∧ IsIn e scope pt (buildTrs ts st).2 ∧ (e = false → (buildTrs ts st).2 = st) := by
  cases ts with
  | nil => exact ⟨trivial, h, fun _ => rfl⟩
  | cons t ts =>
    obtain ⟨h1, h2, h3⟩ := buildTr_marked t st h hf.1
    obtain ⟨t1, t2, t3⟩ := buildTrs_marked ts _ h2 hf.2
    exact ⟨⟨h1, t1⟩, t2, fun he => (t3 he).trans (h3 he)⟩

theorem buildOpt_marked (tr : Option (List TTr)) (st : Trace.State) (h : IsIn e scope pt st) (hf : AllOpt Free tr) :
    AllOpt (Marked e scope pt) (buildOpt tr st).1 ∧ IsIn e scope pt (buildOpt tr st).2 ∧ (e = false → (buildOpt tr st).2 = st) := by
  cases tr with
  | none => exact ⟨trivial, h, fun _ => rfl⟩
  | some ts => exact buildTrs_marked ts st h hf

theorem buildCase_marked (c : (List Ast → Bool) × List TTr) (st : Trace.State) (h : IsIn e scope pt st) (hf : AllCase Free c) :
    AllCase (Marked e scope pt) (buildCase c st).1 ∧ IsIn e scope pt (buildCase c st).2 ∧ (e = false → (buildCase c st).2 = st) := by
  match c with
  | (g, ts) => exact buildTrs_marked ts st h hf

theorem buildCases_marked (cs : List ((List Ast → Bool) × List TTr)) (st : Trace.State) (h : IsIn e scope pt st) (hf : AllCases Free cs) :
    AllCases (Marked e scope pt) (buildCases cs st).1 ∧ IsIn e scope pt (buildCases cs st).2 ∧ (e = false → (buildCases cs st).2 = st) := by
  cases cs with
  | nil => exact ⟨trivial, h, fun _ => rfl⟩
  | cons c cs =>
    obtain ⟨h1, h2, h3⟩ := buildCase_marked c st h hf.1
    obtain ⟨t1, t2, t3⟩ := buildCases_marked cs _ h2 hf.2
    exact ⟨⟨h1, t1⟩, t2, fun he => (t3 he).trans (h3 he)⟩

theorem buildPrec_marked (p : List TGram × Bool) (st : Trace.State) (h : IsIn e scope pt st) (hf : AllPrec Free p) :
    AllPrec (Marked e scope pt) (buildPrec p st).1 ∧ IsIn e scope pt (buildPrec p st).2 ∧ (e = false → (buildPrec p st).2 = st) := by
  match p with
  | (gs, r) => exact buildList_marked gs st h hf

theorem buildPrecs_marked (ps : List (List TGram × Bool)) (st : Trace.State) (h : IsIn e scope pt st) (hf : AllPrecs Free ps) :
    AllPrecs (Marked e scope pt) (buildPrecs ps st).1 ∧ IsIn e scope pt (buildPrecs ps st).2 ∧ (e = false → (buildPrecs ps st).2 = st) := by
  cases ps with
  | nil => exact ⟨trivial, h, fun _ => rfl⟩
  | cons p ps =>
    obtain ⟨h1, h2, h3⟩ := buildPrec_marked p st h hf.1
    obtain ⟨t1, t2, t3⟩ := buildPrecs_marked ps _ h2 hf.2
    exact ⟨⟨h1, t1⟩, t2, fun he => (t3 he).trans (h3 he)⟩
end
end

mutual
theorem all_mono {P P' : TGram → Prop} (hp : ∀ g, P g → P' g) (g : TGram) (h : g.All P) : g.All P' := by
  cases g with
  | prim i cls p => exact hp _ h
  | flatGroup i gs => exact ⟨hp _ h.1, allList_mono hp gs h.2⟩
  | group i gs => exact ⟨hp _ h.1, allList_mono hp gs h.2⟩
  | first i gs => exact ⟨hp _ h.1, allList_mono hp gs h.2⟩
  | lookAhead i gs => exact ⟨hp _ h.1, allList_mono hp gs h.2⟩
  | lookAheadN i gs => exact ⟨hp _ h.1, allList_mono hp gs h.2⟩
  | lookBehind i a b gs => exact ⟨hp _ h.1, allList_mono hp gs h.2⟩
  | lookBehindN i a b gs => exact ⟨hp _ h.1, allList_mono hp gs h.2⟩
  | «repeat» i t gs => exact ⟨hp _ h.1, allList_mono hp gs h.2⟩
  | trans i g trs => exact ⟨hp _ h.1, all_mono hp g h.2.1, allTrs_mono hp trs h.2.2⟩
  | indirect i name => exact hp _ h
  | «match» i n cs => exact ⟨hp _ h.1, allCases_mono hp cs h.2⟩
  | base i cls fn props gs tr => exact ⟨hp _ h.1, allList_mono hp gs h.2.1, allOpt_mono hp tr h.2.2⟩
  | debug i sc p gs => exact ⟨hp _ h.1, allList_mono hp gs h.2⟩

theorem allList_mono {P P' : TGram → Prop} (hp : ∀ g, P g → P' g) (gs : List TGram) (h : AllList P gs) : AllList P' gs := by
  cases gs with
  | nil => trivial
  | cons g gs => exact ⟨all_mono hp g h.1, allList_mono hp gs h.2⟩

theorem allTr_mono {P P' : TGram → Prop} (hp : ∀ g, P g → P' g) (t : TTr) (h : t.All P) : t.All P' := by
  cases t with
  | fn t => trivial
  | production precs check => exact ⟨allPrecs_mono hp precs h.1, all_mono hp check h.2⟩

theorem allTrs_mono {P P' : TGram → Prop} (hp : ∀ g, P g → P' g) (ts : List TTr) (h : AllTrs P ts) : AllTrs P' ts := by
  cases ts with
  | nil => trivial
  | cons t ts => exact ⟨allTr_mono hp t h.1, allTrs_mono hp ts h.2⟩

theorem allOpt_mono {P P' : TGram → Prop} (hp : ∀ g, P g → P' g) (tr : Option (List TTr)) (h : AllOpt P tr) : AllOpt P' tr := by
  cases tr with
  | none => trivial
  | some ts => exact allTrs_mono hp ts h

theorem allCase_mono {P P' : TGram → Prop} (hp : ∀ g, P g → P' g) (c : (List Ast → Bool) × List TTr) (h : AllCase P c) : AllCase P' c := by
  match c, h with
  | (g, ts), h => exact allTrs_mono hp ts h

theorem allCases_mono {P P' : TGram → Prop} (hp : ∀ g, P g → P' g) (cs : List ((List Ast → Bool) × List TTr)) (h : AllCases P cs) : AllCases P' cs := by
  cases cs with
  | nil => trivial
  | cons c cs => exact ⟨allCase_mono hp c h.1, allCases_mono hp cs h.2⟩

theorem allPrec_mono {P P' : TGram → Prop} (hp : ∀ g, P g → P' g) (p : List TGram × Bool) (h : AllPrec P p) : AllPrec P' p := by
  match p, h with
  | (gs, r), h => exact allList_mono hp gs h

theorem allPrecs_mono {P P' : TGram → Prop} (hp : ∀ g, P g → P' g) (ps : List (List TGram × Bool)) (h : AllPrecs P ps) : AllPrecs P' ps := by
  cases ps with
  | nil => trivial
  | cons p ps => exact ⟨allPrec_mono hp p h.1, allPrecs_mono hp ps h.2⟩
end

mutual
theorem all_of {P : TGram → Prop} (hp : ∀ g, P g) (g : TGram) : g.All P := by
  cases g with
  | prim i cls p => exact hp _
  | flatGroup i gs => exact ⟨hp _, allList_of hp gs⟩
  | group i gs => exact ⟨hp _, allList_of hp gs⟩
  | first i gs => exact ⟨hp _, allList_of hp gs⟩
  | lookAhead i gs => exact ⟨hp _, allList_of hp gs⟩
  | lookAheadN i gs => exact ⟨hp _, allList_of hp gs⟩
  | lookBehind i a b gs => exact ⟨hp _, allList_of hp gs⟩
  | lookBehindN i a b gs => exact ⟨hp _, allList_of hp gs⟩
  | «repeat» i t gs => exact ⟨hp _, allList_of hp gs⟩
  | trans i g trs => exact ⟨hp _, all_of hp g, allTrs_of hp trs⟩
  | indirect i name => exact hp _
  | «match» i n cs => exact ⟨hp _, allCases_of hp cs⟩
  | base i cls fn props gs tr => exact ⟨hp _, allList_of hp gs, allOpt_of hp tr⟩
  | debug i sc p gs => exact ⟨hp _, allList_of hp gs⟩

theorem allList_of {P : TGram → Prop} (hp : ∀ g, P g) (gs : List TGram) : AllList P gs := by
  cases gs with
  | nil => trivial
  | cons g gs => exact ⟨all_of hp g, allList_of hp gs⟩

theorem allTr_of {P : TGram → Prop} (hp : ∀ g, P g) (t : TTr) : t.All P := by
  cases t with
  | fn t => trivial
  | production precs check => exact ⟨allPrecs_of hp precs, all_of hp check⟩

theorem allTrs_of {P : TGram → Prop} (hp : ∀ g, P g) (ts : List TTr) : AllTrs P ts := by
  cases ts with
  | nil => trivial
  | cons t ts => exact ⟨allTr_of hp t, allTrs_of hp ts⟩

theorem allOpt_of {P : TGram → Prop} (hp : ∀ g, P g) (tr : Option (List TTr)) : AllOpt P tr := by
  cases tr with
  | none => trivial
  | some ts => exact allTrs_of hp ts

theorem allCase_of {P : TGram → Prop} (hp : ∀ g, P g) (c : (List Ast → Bool) × List TTr) : AllCase P c := by
  match c with
  | (g, ts) => exact allTrs_of hp ts

theorem allCases_of {P : TGram → Prop} (hp : ∀ g, P g) (cs : List ((List Ast → Bool) × List TTr)) : AllCases P cs := by
  cases cs with
  | nil => trivial
  | cons c cs => exact ⟨allCase_of hp c, allCases_of hp cs⟩

theorem allPrec_of {P : TGram → Prop} (hp : ∀ g, P g) (p : List TGram × Bool) : AllPrec P p := by
  match p with
  | (gs, r) => exact allList_of hp gs

theorem allPrecs_of {P : TGram → Prop} (hp : ∀ g, P g) (ps : List (List TGram × Bool)) : AllPrecs P ps := by
  cases ps with
  | nil => trivial
  | cons p ps => exact ⟨allPrec_of hp p, allPrecs_of hp ps⟩
end

theorem wraps_true (g : TGram) : Wraps (fun _ => True) g := all_of (fun _ _ _ => trivial) g

theorem allList_of_mem {P : TGram → Prop} {gs : List TGram} (h : ∀ g ∈ gs, g.All P) : AllList P gs := by
  induction gs with
  | nil => trivial
  | cons g gs ih => exact ⟨h g (by simp), ih fun g' hg => h g' (by simp [hg])⟩

end Takenoco
