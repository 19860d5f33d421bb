import Verif.Lemmas.Lazy
/-
What holds for all functions passed to `Indirect`, also if they return something else each time.
-/
namespace Takenoco
namespace Lazy
open Spec

/-- The computation sets variables that were not set only, and where all that it uses are set it has the same outcome and sets none. -/
def Steady {α : Type} (x : M α) : Prop := ∀ s, Later s (x s).2 ∧ ∀ t, Retains (x s).2 t → x t = ((x s).1, t)

theorem steady_lift {α : Type} (y : Out α) : Steady (lift y) := fun s => ⟨.refl s, fun _ _ => rfl⟩
theorem steady_pure {α : Type} (a : α) : Steady (pure a : M α) := steady_lift (.ok a)

theorem Steady.bind {α β : Type} {x : M α} (hx : Steady x) {f : α → M β} (hf : ∀ a, Steady (f a)) : Steady (x >>= f) := by
  intro s
  obtain ⟨h3, h4⟩ := hx s
  show Later s (M.bind x f s).2 ∧ ∀ t, Retains (M.bind x f s).2 t → M.bind x f t = ((M.bind x f s).1, t)
  rcases hxs : x s with ⟨o, s'⟩
  rw [hxs] at h3 h4
  simp only at h3 h4
  cases o with
  | ok a =>
    obtain ⟨g3, g4⟩ := hf a s'
    simp only [M.bind, hxs]
    refine ⟨h3.trans g3, fun t hh => ?_⟩
    rw [h4 t (g3.holds.trans hh)]
    exact g4 t hh
  | panic r =>
    simp only [M.bind, hxs]
    exact ⟨h3, fun t hh => by rw [h4 t hh]⟩
  | timeout =>
    simp only [M.bind, hxs]
    exact ⟨h3, fun t hh => by rw [h4 t hh]⟩

/-- The same for a parser and for a transformer. -/
def SteadyP (p : Parser) : Prop := ∀ ctx, Steady (p ctx)
def SteadyT (p : Transformer) : Prop := ∀ ctx asts, Steady (p ctx asts)

theorem steady_light (cls : String) {p : Parser} (h : SteadyP p) : SteadyP (light cls p) := fun ctx => (h ctx).bind fun _ => steady_pure _

theorem steady_childLoop (te : Bool) {cs : List Parser} (h : ∀ c ∈ cs, SteadyP c) : ∀ k ctx, Steady (childLoop te cs k ctx) := by
  induction cs with
  | nil => exact fun k ctx => steady_pure _
  | cons c cs ih =>
    rw [List.forall_mem_cons] at h
    intro k ctx
    rw [childLoop]
    refine (h.1 ctx).bind fun r => ?_
    dsimp only
    split
    · exact steady_pure _
    · split
      · exact ih h.2 _ _
      · exact steady_pure _
    · split
      · exact steady_pure _
      · exact ih h.2 _ _

theorem steady_iteration (fn : Option ImplFn) (te : Bool) {cs : List Parser} (h : ∀ c ∈ cs, SteadyP c) (bottom count : Nat) (saved : Ctx) :
    Steady (iteration fn te cs bottom count saved) := by
  unfold iteration
  refine (steady_childLoop te h 0 saved).bind fun r => ?_
  split
  · exact steady_pure _
  · exact steady_pure _
  · split
    · exact steady_pure _
    · refine (steady_lift _).bind fun r => ?_
      dsimp only
      split <;> exact steady_pure _

theorem steady_parentLoop (ub : Bool) {b : Nat → Ctx → M IterEnd} (h : ∀ n ctx, Steady (b n ctx)) (k : Nat) : ∀ count ctx, Steady (parentLoop ub b k count ctx) := by
  induction k with
  | zero =>
    intro count ctx
    rw [parentLoop]
    split
    · exact steady_lift _
    · exact steady_pure _
  | succ k ih =>
    intro count ctx
    rw [parentLoop]
    refine (h count ctx).bind fun r => ?_
    split
    · exact steady_pure _
    · exact steady_pure _
    · exact ih _ _

theorem steady_applyTrs (ctx : Ctx) {ts : List Transformer} (h : ∀ t ∈ ts, SteadyT t) : ∀ asts, Steady (applyTrs ctx ts asts) := by
  induction ts with
  | nil => exact fun asts => steady_pure _
  | cons t ts ih =>
    rw [List.forall_mem_cons] at h
    intro asts
    rw [applyTrs]
    refine (h.1 ctx asts).bind fun r => ?_
    split
    · exact ih h.2 _
    · exact steady_pure _

theorem steady_applyTransforms {tr : Option (List Transformer)} (h : ∀ ts, tr = some ts → ∀ t ∈ ts, SteadyT t) (ctx out : Ctx) : Steady (applyTransforms tr ctx out) := by
  unfold applyTransforms
  cases tr with
  | none => exact steady_pure _
  | some ts =>
    dsimp only
    split
    · exact steady_lift _
    · refine (steady_applyTrs ctx (h ts rfl) _).bind fun r => ?_
      split <;> exact steady_pure _

theorem steady_afterLoop (f : Flags) (fn : Option ImplFn) {tr : Option (List Transformer)} (h : ∀ ts, tr = some ts → ∀ t ∈ ts, SteadyT t) (ctx : Ctx) (count : Nat) (out : Ctx) :
    Steady (afterLoop f fn tr ctx count out) := by
  unfold afterLoop
  dsimp only
  split
  · exact steady_pure _
  · refine (steady_lift _).bind fun r => ?_
    split
    · exact steady_pure _
    · exact steady_applyTransforms h _ _

theorem steady_base (fuel : Nat) (cls : String) (fn : Option ImplFn) (props : List PropItem) {cs : List Parser} (h : ∀ c ∈ cs, SteadyP c)
    {tr : Option (List Transformer)} (ht : ∀ ts, tr = some ts → ∀ t ∈ ts, SteadyT t) : SteadyP (base fuel cls fn props cs tr) := by
  intro ctx
  unfold base
  refine (steady_parentLoop _ (fun n c => steady_iteration fn _ h _ n c) _ _ _).bind fun r => ?_
  split
  · exact steady_pure _
  · exact steady_afterLoop _ _ ht _ _ _

theorem steady_lookBehindLoop (neg : Bool) {p : Parser} (h : SteadyP p) (ctx : Ctx) (k : Nat) : ∀ i, Steady (lookBehindLoop neg p ctx k i) := by
  induction k with
  | zero => exact fun i => steady_pure _
  | succ k ih =>
    intro i
    rw [lookBehindLoop]
    split
    · exact ih _
    · refine (h _).bind fun r => ?_
      split
      · exact steady_pure _
      · split
        · split <;> exact steady_pure _
        · exact ih _

theorem steady_matchFn (n : Int) {cs : List ((List Ast → Bool) × List Transformer)} (h : ∀ c ∈ cs, ∀ t ∈ c.2, SteadyT t) : SteadyP (matchFn n cs) := by
  induction cs with
  | nil => exact fun ctx => steady_pure _
  | cons c cs ih =>
    obtain ⟨g, ts⟩ := c
    rw [List.forall_mem_cons] at h
    intro ctx
    rw [matchFn]
    dsimp only
    split
    · split
      · exact steady_lift _
      · refine (steady_applyTrs _ h.1 _).bind fun r => ?_
        split <;> exact steady_pure _
    · exact ih h.2 ctx

theorem steady_tryRules (astCtx : Ctx) (asts : List Ast) (p : Nat) {cs : List Parser} (h : ∀ c ∈ cs, SteadyP c) : Steady (tryRules astCtx asts p cs) := by
  induction cs with
  | nil => exact steady_pure _
  | cons c cs ih =>
    rw [List.forall_mem_cons] at h
    rw [tryRules]
    refine (h.1 _).bind fun r => ?_
    split
    · exact steady_pure _
    · split
      · exact ih h.2
      · split
        · exact steady_lift _
        · exact steady_pure _

theorem steady_tryPositions (astCtx : Ctx) (asts : List Ast) {cs : List Parser} (h : ∀ c ∈ cs, SteadyP c) (rtol : Bool) (k : Nat) :
    ∀ i, Steady (tryPositions astCtx asts cs rtol k i) := by
  induction k with
  | zero => exact fun i => steady_pure _
  | succ k ih =>
    intro i
    rw [tryPositions]
    refine (steady_tryRules astCtx asts _ h).bind fun r => ?_
    split
    · exact ih _
    · exact steady_pure _

theorem steady_tryPrecedences (tag : Value) (asts : List Ast) {cs : List (List Parser × Bool)} (h : ∀ c ∈ cs, ∀ p ∈ c.1, SteadyP p) : Steady (tryPrecedences tag asts cs) := by
  induction cs with
  | nil => exact steady_pure _
  | cons c cs ih =>
    obtain ⟨c, r⟩ := c
    rw [List.forall_mem_cons] at h
    rw [tryPrecedences]
    refine (steady_tryPositions _ asts h.1 r _ 0).bind fun r => ?_
    split
    · exact ih h.2
    · exact steady_pure _

theorem steady_checkHolds {p : Parser} (h : SteadyP p) (tag : Value) (asts : List Ast) : Steady (checkHolds p tag asts) := (h _).bind fun _ => steady_pure _

theorem steady_productionLoop {cs : List (List Parser × Bool)} (h : ∀ c ∈ cs, ∀ p ∈ c.1, SteadyP p) {p : Parser} (hp : SteadyP p) (tag : Value) (n : Nat) :
    ∀ asts, Steady (productionLoop cs p tag n asts) := by
  induction n with
  | zero => exact fun asts => steady_lift _
  | succ n ih =>
    intro asts
    rw [productionLoop]
    refine (steady_tryPrecedences tag asts h).bind fun r => ?_
    split
    · exact steady_pure _
    · refine (steady_checkHolds hp tag asts).bind fun b => ?_
      split <;> exact steady_pure _
    · refine (steady_checkHolds hp tag _).bind fun b => ?_
      split
      · exact steady_pure _
      · exact ih _

theorem steady_kept (mk : Maker) (nameOf : Nat → Nat) {exec : Gram → Parser} (h : ∀ g, SteadyP (exec g)) (a : Nat) : SteadyP (kept mk nameOf exec a) := by
  intro ctx s
  have given : ∀ (t : Cells) (g : Gram), t.cell a = some g → kept mk nameOf exec a ctx t = exec g ctx t := fun t g hg => by simp only [kept, hg]
  cases hc : s.cell a with
  | some g =>
    obtain ⟨h3, h4⟩ := h g ctx s
    rw [given s g hc]
    exact ⟨h3, fun t hh => by rw [given t g (hh a g (h3.holds a g hc))]; exact h4 t hh⟩
  | none =>
    have hg : (s.fill a (mk (nameOf a) s.calls)).cell a = some (mk (nameOf a) s.calls) := by simp [Cells.fill]
    have hk : kept mk nameOf exec a ctx s = exec (mk (nameOf a) s.calls) ctx (s.fill a (mk (nameOf a) s.calls)) := by simp only [kept, hc]
    obtain ⟨h3, h4⟩ := h (mk (nameOf a) s.calls) ctx (s.fill a (mk (nameOf a) s.calls))
    rw [hk]
    exact ⟨(later_fill hc _).trans h3, fun t hh => by rw [given t _ (hh a _ (h3.holds a _ hg))]; exact h4 t hh⟩

theorem steady_run (mk : Maker) (nameOf : Nat → Nat) (n : Nat) : (∀ g : Gram, SteadyP (run mk nameOf n g)) ∧ ∀ t : Tr, SteadyT (runTr mk nameOf n t) := by
  induction n with
  | zero => exact ⟨fun g ctx => by rw [run.eq_def]; exact steady_lift _, fun t ctx asts => by rw [runTr.eq_def]; exact steady_lift _⟩
  | succ n ih =>
    obtain ⟨ihg, iht⟩ := ih
    have hl : ∀ gs : List Gram, ∀ c ∈ gs.map (run mk nameOf n), SteadyP c := fun gs c hc => by
      obtain ⟨g, -, rfl⟩ := List.mem_map.1 hc; exact ihg g
    have ht : ∀ ts : List Tr, ∀ t ∈ ts.map (runTr mk nameOf n), SteadyT t := fun ts c hc => by
      obtain ⟨g, -, rfl⟩ := List.mem_map.1 hc; exact iht g
    constructor
    · intro g
      rw [run.eq_def]
      cases g with
      | prim p => exact fun ctx => steady_lift _
      | flatGroup gs => exact steady_base 0 _ none _ (hl gs) (tr := none) nofun
      | group gs =>
        refine steady_base 0 _ none _ (hl gs) fun ts h t hm => ?_
        injection h with h; subst h; rw [List.mem_singleton] at hm; subst hm; exact fun ctx asts => steady_lift _
      | first gs => exact steady_base 0 _ none _ (hl gs) (tr := none) nofun
      | lookAhead gs => exact steady_base 0 _ none _ (hl gs) (tr := none) nofun
      | lookAheadN gs => exact steady_base 0 _ none _ (hl gs) (tr := none) nofun
      | lookBehind a b gs => exact fun ctx => steady_lookBehindLoop false (steady_base 0 _ none _ (hl gs) (tr := none) nofun) ctx _ _
      | lookBehindN a b gs => exact fun ctx => steady_lookBehindLoop true (steady_base 0 _ none _ (hl gs) (tr := none) nofun) ctx _ _
      | «repeat» t gs => exact steady_base n _ none _ (hl gs) (tr := none) nofun
      | trans g trs =>
        refine steady_base 0 _ none _ (fun c hc => by rw [List.mem_singleton] at hc; subst hc; exact ihg g) fun ts h => ?_
        split at h
        · cases h
        · injection h with h; subst h; exact ht trs
      | indirect a => exact steady_light _ (steady_kept mk nameOf ihg a)
      | «match» k cs =>
        refine steady_light _ (steady_matchFn k fun c hc => ?_)
        obtain ⟨d, -, rfl⟩ := List.mem_map.1 hc
        exact ht d.2
      | base cls fn props gs tr =>
        refine steady_base n _ fn props (hl gs) fun ts h => ?_
        cases tr with
        | none => cases h
        | some us => injection h with h; subst h; exact ht us
    · intro t
      rw [runTr.eq_def]
      cases t with
      | fn f => exact fun ctx asts => steady_lift _
      | production precs check =>
        refine fun ctx asts => steady_productionLoop (fun c hc => ?_) (ihg check) _ _ _
        obtain ⟨d, -, rfl⟩ := List.mem_map.1 hc
        exact hl d.1

end Lazy
end Takenoco
