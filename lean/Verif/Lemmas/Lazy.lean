import Verif.Spec.Lazy
import Verif.Lemmas.Tracer
/-
The engine with the variables of `Indirect` agrees with the one without.
-/
namespace Takenoco
namespace Lazy
open Spec

theorem _root_.Takenoco.Spec.Retains.trans {a b c : Cells} (h : Retains a b) (h' : Retains b c) : Retains a c := fun x g hg => h' x g (h x g hg)

theorem _root_.Takenoco.Spec.Later.refl (s : Cells) : Later s s := ⟨[], .nil, rfl, by simp, fun _ _ => rfl⟩

theorem _root_.Takenoco.Spec.Later.holds {s t : Cells} (h : Later s t) : Retains s t := by
  obtain ⟨l, -, -, h1, h2⟩ := h
  intro a g hg
  by_cases ha : a ∈ l
  · rw [(h1 a ha).1] at hg; cases hg
  · rw [h2 a ha, hg]

theorem _root_.Takenoco.Spec.Later.trans {a b c : Cells} (h : Later a b) (h' : Later b c) : Later a c := by
  have hh := h.holds
  have hh' := h'.holds
  obtain ⟨l, h1, h2, h3, h4⟩ := h
  obtain ⟨k, g1, g2, g3, g4⟩ := h'
  refine ⟨l ++ k, List.nodup_append.2 ⟨h1, g1, fun x hx y hy e => ?_⟩, by rw [g2, h2, List.length_append]; omega, fun x hx => ?_, fun x hx => ?_⟩
  · subst e
    exact (h3 x hx).2 (g3 x hy).1
  · rcases List.mem_append.1 hx with hx | hx
    · refine ⟨(h3 x hx).1, fun e => ?_⟩
      cases hb : b.cell x with
      | none => exact (h3 x hx).2 hb
      | some g => rw [hh' x g hb] at e; cases e
    · refine ⟨?_, (g3 x hx).2⟩
      cases ha : a.cell x with
      | none => rfl
      | some g => have := hh x g ha; rw [(g3 x hx).1] at this; cases this
  · rw [List.mem_append, not_or] at hx
    rw [g4 x hx.2, h4 x hx.1]

theorem later_fill {s : Cells} {a : Nat} (h : s.cell a = none) (g : Gram) : Later s (s.fill a g) :=
  ⟨[a], by simp, rfl, fun b hb => by simp at hb; subst hb; exact ⟨h, by simp [Cells.fill]⟩, fun b hb => by simp at hb; simp [Cells.fill, hb]⟩

/-- The computation has this outcome, whatever is in the variables; it sets some that were not set, and where they are set it sets none. -/
def Agrees {α : Type} (Q : Cells → Prop) (x : M α) (y : Out α) : Prop :=
  ∀ s, Q s → (x s).1 = y ∧ Q (x s).2 ∧ Later s (x s).2 ∧ ∀ t, Q t → Retains (x s).2 t → x t = (y, t)

section
variable {Q : Cells → Prop}

theorem agrees_lift {α : Type} (y : Out α) : Agrees Q (lift y) y := fun s hs => ⟨rfl, hs, .refl s, fun _ _ _ => rfl⟩

theorem agrees_pure {α : Type} (a : α) : Agrees Q (pure a) (.ok a) := agrees_lift (.ok a)

/-- What remains to be shown for a sequence. -/
def Continues {α β : Type} (Q : Cells → Prop) (y : Out α) (f : α → M β) (z : Out β) : Prop :=
  match y with
  | .ok a => Agrees Q (f a) z
  | .panic p => z = .panic p
  | .timeout => z = .timeout

theorem Agrees.step {α β : Type} {x : M α} {y : Out α} {f : α → M β} {z : Out β} (hx : Agrees Q x y)
    (h : Continues Q y f z) : Agrees Q (x >>= f) z := by
  intro s hs
  obtain ⟨h1, h2, h3, h4⟩ := hx s hs
  show (M.bind x f s).1 = z ∧ Q (M.bind x f s).2 ∧ Later s (M.bind x f s).2 ∧ ∀ t, Q t → Retains (M.bind x f s).2 t → M.bind x f t = (z, t)
  rcases hxs : x s with ⟨o, s'⟩
  rw [hxs] at h1 h2 h3 h4
  subst h1
  simp only at h2 h3 h4
  cases o with
  | ok a =>
    obtain ⟨g1, g2, g3, g4⟩ := h s' h2
    simp only [M.bind, hxs]
    refine ⟨g1, g2, h3.trans g3, fun t ht hh => ?_⟩
    rw [h4 t ht (g3.holds.trans hh)]
    exact g4 t ht hh
  | panic r =>
    cases (show z = .panic r from h)
    simp only [M.bind, hxs]
    exact ⟨trivial, h2, h3, fun t ht hh => by rw [h4 t ht hh]⟩
  | timeout =>
    cases (show z = .timeout from h)
    simp only [M.bind, hxs]
    exact ⟨trivial, h2, h3, fun t ht hh => by rw [h4 t ht hh]⟩

theorem Agrees.step' {α β : Type} {x : M α} {y : Out α} {f : α → M β} {z : Out β} (hx : Agrees Q x y) (h1 : ∀ a, y = .ok a → Agrees Q (f a) z)
    (h2 : ∀ p, y = .panic p → z = .panic p) (h3 : y = .timeout → z = .timeout) : Agrees Q (x >>= f) z := by
  refine hx.step ?_
  cases y with
  | ok a => exact h1 a rfl
  | panic p => exact h2 p rfl
  | timeout => exact h3 rfl

/-- The parsers agree on every context. -/
def AgreesP (Q : Cells → Prop) (p : Lazy.Parser) (q : Sem) : Prop := ∀ ctx, Agrees Q (p ctx) (q ctx)
/-- The same for transformers. -/
def AgreesT (Q : Cells → Prop) (p : Lazy.Transformer) (q : TSem) : Prop := ∀ ctx asts, Agrees Q (p ctx asts) (q ctx asts)

/-! ### The engine -/

theorem agrees_light (cls : String) {p : Lazy.Parser} {q : Sem} (h : AgreesP Q p q) : AgreesP Q (light cls p) (lightParser cls q) := by
  intro ctx
  refine (h ctx).step ?_
  unfold lightParser
  cases q ctx with
  | ok r => exact agrees_pure _
  | panic r => rfl
  | timeout => rfl

theorem agrees_childLoop (te : Bool) {cs : List Lazy.Parser} {ds : List Sem} (h : Each (AgreesP Q) cs ds) :
    ∀ k ctx, Agrees Q (Lazy.childLoop te cs k ctx) (Takenoco.childLoop te ds k ctx) := by
  induction h with
  | nil => intro k ctx; exact agrees_pure _
  | @cons c d cs ds hc _ ih =>
    intro k ctx
    rw [Lazy.childLoop, Takenoco.childLoop]
    refine (hc ctx).step ?_
    cases d ctx with
    | panic r => rfl
    | timeout => rfl
    | ok r =>
      obtain ⟨o, err⟩ := r
      simp only [Continues]
      cases (fixStatus o err).status with
      | error => exact agrees_pure _
      | unmatched => cases te with
        | true => exact ih _ _
        | false => exact agrees_pure _
      | matched => cases te with
        | true => exact agrees_pure _
        | false => exact ih _ _

theorem agrees_iteration (fn : Option ImplFn) (te : Bool) {cs : List Lazy.Parser} {ds : List Sem} (h : Each (AgreesP Q) cs ds)
    (bottom count : Nat) (saved : Ctx) : Agrees Q (Lazy.iteration fn te cs bottom count saved) (Takenoco.iteration fn te ds bottom count saved) := by
  unfold Lazy.iteration Takenoco.iteration
  refine (agrees_childLoop te h 0 saved).step ?_
  cases Takenoco.childLoop te ds 0 saved with
  | panic r => rfl
  | timeout => rfl
  | ok r =>
    cases r with
    | ret o e => exact agrees_pure _
    | unmatched => exact agrees_pure _
    | fell k out =>
      simp only [Continues, h.length_eq]
      split
      · exact agrees_pure _
      · refine (agrees_lift _).step ?_
        cases callFn fn k bottom { out with qty := count } with
        | panic r => rfl
        | timeout => rfl
        | ok r =>
          obtain ⟨out, err⟩ := r
          simp only [Continues]
          cases out.status <;> exact agrees_pure _

theorem agrees_parentLoop (ub : Bool) {b : Nat → Ctx → M IterEnd} {b' : Nat → Ctx → Out IterEnd} (h : ∀ n ctx, Agrees Q (b n ctx) (b' n ctx)) (k : Nat) :
    ∀ count ctx, Agrees Q (Lazy.parentLoop ub b k count ctx) (Takenoco.parentLoop ub b' k count ctx) := by
  induction k with
  | zero =>
    intro count ctx
    rw [Lazy.parentLoop, Takenoco.parentLoop]
    cases ub with
    | true => exact agrees_lift _
    | false => exact agrees_pure _
  | succ k ih =>
    intro count ctx
    rw [Lazy.parentLoop, Takenoco.parentLoop]
    refine (h count ctx).step ?_
    cases b' count ctx with
    | panic r => rfl
    | timeout => rfl
    | ok r =>
      cases r with
      | ret o e => exact agrees_pure _
      | brk o => exact agrees_pure _
      | next o => exact ih _ _

theorem agrees_applyTrs (ctx : Ctx) {ts : List Lazy.Transformer} {us : List TSem} (h : Each (AgreesT Q) ts us) :
    ∀ asts, Agrees Q (Lazy.applyTrs ctx ts asts) (Takenoco.applyTrs ctx us asts) := by
  induction h with
  | nil => intro asts; exact agrees_pure _
  | @cons t u ts us ht _ ih =>
    intro asts
    rw [Lazy.applyTrs, Takenoco.applyTrs]
    refine (ht ctx asts).step ?_
    cases u ctx asts with
    | panic r => rfl
    | timeout => rfl
    | ok r =>
      obtain ⟨asts', e⟩ := r
      cases e with
      | none => exact ih _
      | some e => exact agrees_pure _

/-- The transformers of a parser agree. -/
def AgreesO (Q : Cells → Prop) : Option (List Lazy.Transformer) → Option (List TSem) → Prop
  | none, none => True
  | some ts, some us => Each (AgreesT Q) ts us
  | _, _ => False

theorem agrees_applyTransforms {tr : Option (List Lazy.Transformer)} {us : Option (List TSem)} (h : AgreesO Q tr us) (ctx out : Ctx) :
    Agrees Q (Lazy.applyTransforms tr ctx out) (Takenoco.applyTransforms us ctx out) := by
  unfold Lazy.applyTransforms Takenoco.applyTransforms
  match tr, us, h with
  | none, none, _ => exact agrees_pure _
  | some ts, some us, h =>
    simp only
    split
    · exact agrees_lift _
    · refine (agrees_applyTrs (us := us) ctx h _).step ?_
      cases Takenoco.applyTrs ctx us (out.stack.drop ctx.stack.length) with
      | panic r => rfl
      | timeout => rfl
      | ok r =>
        obtain ⟨asts', e⟩ := r
        cases e <;> exact agrees_pure _

theorem agrees_afterLoop (f : Flags) (fn : Option ImplFn) {tr : Option (List Lazy.Transformer)} {us : Option (List TSem)} (h : AgreesO Q tr us)
    (ctx : Ctx) (count : Nat) (out : Ctx) : Agrees Q (Lazy.afterLoop f fn tr ctx count out) (Takenoco.afterLoop f fn us ctx count out) := by
  unfold Lazy.afterLoop Takenoco.afterLoop
  simp only
  split
  · exact agrees_pure _
  · refine (agrees_lift _).step' (fun a ha => ?_) (fun p hp => by rw [hp]) (fun ht => by rw [ht])
    rw [ha]
    simp only
    split
    · exact agrees_pure _
    · exact agrees_applyTransforms h _ _

theorem agrees_base (fuel : Nat) (cls : String) (fn : Option ImplFn) (props : List PropItem) {cs : List Lazy.Parser} {ds : List Sem}
    (h : Each (AgreesP Q) cs ds) {tr : Option (List Lazy.Transformer)} {us : Option (List TSem)} (ht : AgreesO Q tr us) :
    AgreesP Q (base fuel cls fn props cs tr) (baseParser fuel cls fn props ds us) := by
  intro ctx
  unfold base baseParser
  refine (agrees_parentLoop _ (fun n c => agrees_iteration fn _ h _ n c) _ _ _).step' (fun a ha => ?_) (fun p hp => by simp only [hp]) (fun ht => by simp only [ht])
  simp only [ha]
  cases a with
  | ret o e => exact agrees_pure _
  | done k o => exact agrees_afterLoop _ _ ht _ _ _

theorem agrees_lookBehindLoop (neg : Bool) {p : Lazy.Parser} {q : Sem} (h : AgreesP Q p q) (ctx : Ctx) (k : Nat) :
    ∀ i, Agrees Q (Lazy.lookBehindLoop neg p ctx k i) (Takenoco.lookBehindLoop neg q ctx k i) := by
  induction k with
  | zero => intro i; exact agrees_pure _
  | succ k ih =>
    intro i
    rw [Lazy.lookBehindLoop, Takenoco.lookBehindLoop]
    split
    · exact ih _
    · refine (h _).step ?_
      cases q { ctx with pos := ((ctx.pos : Int) - i).toNat } with
      | panic r => rfl
      | timeout => rfl
      | ok r =>
        obtain ⟨out, e⟩ := r
        cases e with
        | some e => exact agrees_pure _
        | none =>
          simp only [Continues]
          split
          · split <;> exact agrees_pure _
          · exact ih _

theorem agrees_lookBehindBase (neg : Bool) (a b : Int) {cs : List Lazy.Parser} {ds : List Sem} (h : Each (AgreesP Q) cs ds) :
    AgreesP Q (Lazy.lookBehindBase neg a b cs) (Takenoco.lookBehindBase neg a b ds) := fun ctx =>
  agrees_lookBehindLoop neg (agrees_base 0 _ none _ h (tr := none) (us := none) trivial) ctx _ _

/-- The cases of a `Match` agree. -/
def AgreesC (Q : Cells → Prop) (c : (List Ast → Bool) × List Lazy.Transformer) (d : (List Ast → Bool) × List TSem) : Prop := c.1 = d.1 ∧ Each (AgreesT Q) c.2 d.2

theorem agrees_matchFn (n : Int) {cs : List ((List Ast → Bool) × List Lazy.Transformer)} {ds : List ((List Ast → Bool) × List TSem)}
    (h : Each (AgreesC Q) cs ds) : AgreesP Q (Lazy.matchFn n cs) (Takenoco.matchFn n ds) := by
  induction h with
  | nil => intro ctx; exact agrees_pure _
  | @cons c d cs ds hc _ ih =>
    intro ctx
    obtain ⟨g, ts⟩ := c
    obtain ⟨g', us⟩ := d
    obtain ⟨rfl, hc⟩ := hc
    simp only at hc
    rw [Lazy.matchFn, Takenoco.matchFn]
    simp only
    split
    · split
      · exact agrees_lift _
      · refine (agrees_applyTrs _ hc _).step' (fun a ha => ?_) (fun p hp => by simp only [hp]) (fun ht => by simp only [ht])
        simp only [ha]
        obtain ⟨asts', e⟩ := a
        cases e <;> exact agrees_pure _
    · exact ih ctx

theorem agrees_tryRules (astCtx : Ctx) (asts : List Ast) (p : Nat) {cs : List Lazy.Parser} {ds : List Sem} (h : Each (AgreesP Q) cs ds) :
    Agrees Q (Lazy.tryRules astCtx asts p cs) (Takenoco.tryRules astCtx asts p ds) := by
  induction h with
  | nil => exact agrees_pure _
  | @cons c d cs ds hc _ ih =>
    rw [Lazy.tryRules, Takenoco.tryRules]
    refine (hc _).step ?_
    cases d { astCtx with pos := p } with
    | panic r => rfl
    | timeout => rfl
    | ok r =>
      obtain ⟨out, e⟩ := r
      cases e with
      | some e => exact agrees_pure _
      | none =>
        simp only [Continues]
        split
        · exact ih
        · split
          · exact agrees_lift _
          · exact agrees_pure _

theorem agrees_tryPositions (astCtx : Ctx) (asts : List Ast) {cs : List Lazy.Parser} {ds : List Sem} (h : Each (AgreesP Q) cs ds) (rtol : Bool) (k : Nat) :
    ∀ i, Agrees Q (Lazy.tryPositions astCtx asts cs rtol k i) (Takenoco.tryPositions astCtx asts ds rtol k i) := by
  induction k with
  | zero => intro i; exact agrees_pure _
  | succ k ih =>
    intro i
    rw [Lazy.tryPositions, Takenoco.tryPositions]
    refine (agrees_tryRules astCtx asts _ h).step ?_
    cases Takenoco.tryRules astCtx asts (if rtol = true then asts.length - i else i) ds with
    | panic r => rfl
    | timeout => rfl
    | ok r =>
      cases r with
      | noMatch => exact ih _
      | rewritten a => exact agrees_pure _
      | err e => exact agrees_pure _

/-- The precedences of a `ProductionRule` agree. -/
def AgreesR (Q : Cells → Prop) (c : List Lazy.Parser × Bool) (d : List Sem × Bool) : Prop := Each (AgreesP Q) c.1 d.1 ∧ c.2 = d.2

theorem agrees_tryPrecedences (tag : Value) (asts : List Ast) {cs : List (List Lazy.Parser × Bool)} {ds : List (List Sem × Bool)}
    (h : Each (AgreesR Q) cs ds) : Agrees Q (Lazy.tryPrecedences tag asts cs) (Takenoco.tryPrecedences tag asts ds) := by
  induction h with
  | nil => exact agrees_pure _
  | @cons c d cs ds hc _ ih =>
    obtain ⟨c, r⟩ := c
    obtain ⟨d, r'⟩ := d
    obtain ⟨hc, hr⟩ := hc
    simp only at hc hr
    subst hr
    rw [Lazy.tryPrecedences, Takenoco.tryPrecedences]
    refine (agrees_tryPositions _ asts hc r _ 0).step' (fun a ha => ?_) (fun p hp => by rw [hp]) (fun ht => by rw [ht])
    rw [ha]
    cases a with
    | noMatch => exact ih
    | rewritten a => exact agrees_pure _
    | err e => exact agrees_pure _

theorem agrees_checkHolds {p : Lazy.Parser} {q : Sem} (h : AgreesP Q p q) (tag : Value) (asts : List Ast) :
    Agrees Q (Lazy.checkHolds p tag asts) (Takenoco.checkHolds q tag asts) := by
  unfold Lazy.checkHolds Takenoco.checkHolds
  refine (h _).step' (fun a ha => ?_) (fun p hp => by rw [hp]) (fun ht => by rw [ht])
  rw [ha]
  exact agrees_pure _

theorem agrees_productionLoop {cs : List (List Lazy.Parser × Bool)} {ds : List (List Sem × Bool)} (h : Each (AgreesR Q) cs ds) {p : Lazy.Parser} {q : Sem}
    (hp : AgreesP Q p q) (tag : Value) (n : Nat) : ∀ asts, Agrees Q (Lazy.productionLoop cs p tag n asts) (Takenoco.productionLoop ds q tag n asts) := by
  induction n with
  | zero => intro asts; exact agrees_lift _
  | succ n ih =>
    intro asts
    rw [Lazy.productionLoop, Takenoco.productionLoop]
    refine (agrees_tryPrecedences tag asts h).step ?_
    cases Takenoco.tryPrecedences tag asts ds with
    | panic r => rfl
    | timeout => rfl
    | ok r =>
      cases r with
      | err e => exact agrees_pure _
      | noMatch =>
        refine (agrees_checkHolds hp tag asts).step ?_
        cases Takenoco.checkHolds q tag asts with
        | panic r => rfl
        | timeout => rfl
        | ok b => cases b <;> exact agrees_pure _
      | rewritten a =>
        simp only [Continues]
        refine (agrees_checkHolds hp tag a).step ?_
        cases Takenoco.checkHolds q tag a with
        | panic r => rfl
        | timeout => rfl
        | ok b => cases b with
          | true => exact agrees_pure _
          | false => exact ih _

end

/-! ### Grammars -/

theorem renameList_eq (f : Nat → Nat) (gs : List Gram) : renameList f gs = gs.map (Gram.rename f) := by
  induction gs with
  | nil => rfl
  | cons g gs ih => rw [renameList, ih]; rfl

theorem renameTrs_eq (f : Nat → Nat) (ts : List Tr) : renameTrs f ts = ts.map (Tr.rename f) := by
  induction ts with
  | nil => rfl
  | cons g gs ih => rw [renameTrs, ih]; rfl

theorem renameCases_eq (f : Nat → Nat) (cs : List ((List Ast → Bool) × List Tr)) : renameCases f cs = cs.map fun c => (c.1, c.2.map (Tr.rename f)) := by
  induction cs with
  | nil => rfl
  | cons c cs ih => obtain ⟨g, ts⟩ := c; rw [renameCases, ih, renameCase, renameTrs_eq]; rfl

theorem renamePrecs_eq (f : Nat → Nat) (cs : List (List Gram × Bool)) : renamePrecs f cs = cs.map fun c => (c.1.map (Gram.rename f), c.2) := by
  induction cs with
  | nil => rfl
  | cons c cs ih => obtain ⟨g, ts⟩ := c; rw [renamePrecs, ih, renamePrec, renameList_eq]; rfl

theorem agrees_run {mk : Maker} {nameOf : Nat → Nat} {env : Env} (he : ∀ name k, (mk name k).rename nameOf = env name) (n : Nat) :
    (∀ g : Gram, AgreesP (MadeBy env nameOf) (run mk nameOf n g) (Takenoco.run env n (g.rename nameOf))) ∧
    (∀ t : Tr, AgreesT (MadeBy env nameOf) (runTr mk nameOf n t) (Takenoco.runTr env n (t.rename nameOf))) := by
  induction n with
  | zero => exact ⟨fun g ctx => by rw [run.eq_def, Takenoco.run.eq_def]; exact agrees_lift _, fun t ctx asts => by rw [runTr.eq_def, Takenoco.runTr.eq_def]; exact agrees_lift _⟩
  | succ n ih =>
    obtain ⟨ihg, iht⟩ := ih
    have hl : ∀ gs : List Gram, Each (AgreesP (MadeBy env nameOf)) (gs.map (run mk nameOf n)) ((renameList nameOf gs).map (Takenoco.run env n)) := fun gs => by
      rw [renameList_eq, List.map_map]; exact each_map gs fun g _ => ihg g
    have ht : ∀ ts : List Tr, Each (AgreesT (MadeBy env nameOf)) (ts.map (runTr mk nameOf n)) ((renameTrs nameOf ts).map (Takenoco.runTr env n)) := fun ts => by
      rw [renameTrs_eq, List.map_map]; exact each_map ts fun t _ => iht t
    constructor
    · intro g
      rw [run.eq_def, Takenoco.run.eq_def]
      cases g with
      | prim p => exact fun ctx => agrees_lift _
      | flatGroup gs => exact agrees_base 0 _ none _ (hl gs) trivial
      | group gs => exact agrees_base 0 _ none _ (hl gs) (tr := some _) (us := some _) (.cons (fun ctx asts => agrees_lift _) .nil)
      | first gs => exact agrees_base 0 _ none _ (hl gs) trivial
      | lookAhead gs => exact agrees_base 0 _ none _ (hl gs) trivial
      | lookAheadN gs => exact agrees_base 0 _ none _ (hl gs) trivial
      | lookBehind a b gs => exact agrees_lookBehindBase false a b (hl gs)
      | lookBehindN a b gs => exact agrees_lookBehindBase true a b (hl gs)
      | «repeat» t gs => exact agrees_base n _ none _ (hl gs) trivial
      | trans g trs =>
        refine agrees_base 0 _ none _ (.cons (ihg g) .nil) ?_
        have h := ht trs
        simp only [variadic, List.isEmpty_map]
        cases trs with
        | nil => trivial
        | cons t ts => exact h
      | indirect a =>
        refine agrees_light _ fun ctx s hs => ?_
        have known : ∀ (s : Cells) (g : Gram), s.cell a = some g → MadeBy env nameOf s →
            Takenoco.run env n (g.rename nameOf) = Takenoco.run env n (env (nameOf a)) := fun s g hg hs => by rw [hs a g hg]
        have given : ∀ (t : Cells) (g : Gram), t.cell a = some g → kept mk nameOf (run mk nameOf n) a ctx t = run mk nameOf n g ctx t := fun t g hg => by
          simp only [kept, hg]
        cases hc : s.cell a with
        | some g =>
          obtain ⟨h1, h2, h3, h4⟩ := ihg g ctx s hs
          rw [given s g hc]
          rw [known s g hc hs] at h1 h4
          exact ⟨h1, h2, h3, fun t ht hh => by rw [given t g (hh a g (h3.holds a g hc))]; exact h4 t ht hh⟩
        | none =>
          have hf := later_fill hc (mk (nameOf a) s.calls)
          have hg : (s.fill a (mk (nameOf a) s.calls)).cell a = some (mk (nameOf a) s.calls) := by simp [Cells.fill]
          have hb : MadeBy env nameOf (s.fill a (mk (nameOf a) s.calls)) := fun b g hb => by
            by_cases hba : b = a
            · subst hba; rw [hg] at hb; injection hb with hb; rw [← hb, he]
            · simp only [Cells.fill, if_neg hba] at hb; exact hs b g hb
          have hk : kept mk nameOf (run mk nameOf n) a ctx s = run mk nameOf n (mk (nameOf a) s.calls) ctx (s.fill a (mk (nameOf a) s.calls)) := by
            simp only [kept, hc]
          obtain ⟨h1, h2, h3, h4⟩ := ihg (mk (nameOf a) s.calls) ctx _ hb
          rw [hk]
          rw [known _ _ hg hb] at h1 h4
          exact ⟨h1, h2, hf.trans h3, fun t ht hh => by rw [given t _ (hh a _ (h3.holds a _ hg))]; exact h4 t ht hh⟩
      | «match» k cs =>
        refine agrees_light _ (agrees_matchFn k ?_)
        show Each (AgreesC (MadeBy env nameOf)) _ ((renameCases nameOf cs).map _)
        rw [renameCases_eq, List.map_map]
        refine each_map cs fun c hc => ⟨rfl, ?_⟩
        have := ht c.2
        rw [renameTrs_eq] at this
        exact this
      | base cls fn props gs tr =>
        refine agrees_base n _ fn props (hl gs) ?_
        cases tr with
        | none => trivial
        | some ts => exact ht ts
    · intro t
      rw [runTr.eq_def, Takenoco.runTr.eq_def]
      cases t with
      | fn f => exact fun ctx asts => agrees_lift _
      | production precs check =>
        refine fun ctx asts => agrees_productionLoop ?_ (ihg check) _ _ _
        show Each (AgreesR (MadeBy env nameOf)) _ ((renamePrecs nameOf precs).map _)
        rw [renamePrecs_eq, List.map_map]
        refine each_map precs fun c hc => ⟨?_, rfl⟩
        have := hl c.1
        rw [renameList_eq] at this
        exact this

end Lazy
end Takenoco
