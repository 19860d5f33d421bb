import Verif.Spec.Depth
import Verif.Lemmas.Cost
/-
Bounds for the nesting of parser calls.
-/
namespace Takenoco
open Spec Trace

/-- The number of open calls after the events. -/
def level : Nat → List Event → Nat
  | d, [] => d
  | d, .before _ _ :: l => level (d + 1) l
  | d, .after _ _ _ :: l => level (d - 1) l
  | d, .panic _ _ _ :: l => level (d - 1) l

theorem le_nesting (l : List Event) : ∀ d, d ≤ nesting d l := by
  induction l with
  | nil => intro d; exact Nat.le_refl _
  | cons e l ih =>
    intro d
    cases e with
    | before i c => exact Nat.le_trans (Nat.le_succ d) (ih (d + 1))
    | after i c e => exact Nat.le_max_left _ _
    | panic i c r => exact Nat.le_max_left _ _

theorem level_le_nesting (l : List Event) : ∀ d, level d l ≤ nesting d l := by
  induction l with
  | nil => intro d; exact Nat.le_refl _
  | cons e l ih =>
    intro d
    cases e with
    | before i c => exact ih (d + 1)
    | after i c e => exact Nat.le_trans (ih (d - 1)) (Nat.le_max_right _ _)
    | panic i c r => exact Nat.le_trans (ih (d - 1)) (Nat.le_max_right _ _)

theorem level_append (l m : List Event) : ∀ d, level d (l ++ m) = level (level d l) m := by
  induction l with
  | nil => intro d; rfl
  | cons e l ih =>
    intro d
    cases e with
    | before i c => exact ih (d + 1)
    | after i c e => exact ih (d - 1)
    | panic i c r => exact ih (d - 1)

theorem nesting_append (l m : List Event) : ∀ d, nesting d (l ++ m) = max (nesting d l) (nesting (level d l) m) := by
  induction l with
  | nil => intro d; exact (Nat.max_eq_right (le_nesting m d)).symm
  | cons e l ih =>
    intro d
    cases e with
    | before i c => exact ih (d + 1)
    | after i c e => show max d (nesting (d - 1) (l ++ m)) = max (max d (nesting (d - 1) l)) _; rw [ih, Nat.max_assoc]; rfl
    | panic i c r => show max d (nesting (d - 1) (l ++ m)) = max (max d (nesting (d - 1) l)) _; rw [ih, Nat.max_assoc]; rfl

/-- The computation nests calls at most `B` deep, and if it ends normally its result has `P` and all calls have returned. -/
def Deep {α : Type} (x : M α) (B : Nat) (P : α → Prop) : Prop :=
  ∀ s, ∃ l, (x s).2.events = s.events ++ l ∧ (∀ d, nesting d l ≤ d + B) ∧ ∀ a, (x s).1 = .ok a → P a ∧ ∀ d, level d l = d

section
variable {α β : Type} {B B' : Nat} {P : α → Prop} {Q : β → Prop}

theorem deep_lift {y : Out α} (h : ∀ a, y = .ok a → P a) : Deep (lift y) B P :=
  fun _ => ⟨[], by simp [lift], fun _ => Nat.le_add_right _ _, fun a ha => ⟨h a ha, fun _ => rfl⟩⟩

theorem deep_pure {a : α} (h : P a) : Deep (pure a) B P :=
  fun _ => ⟨[], by simp [pure], fun _ => Nat.le_add_right _ _, fun b hb => by cases hb; exact ⟨h, fun _ => rfl⟩⟩

theorem Deep.mono {x : M α} {P' : α → Prop} (h : Deep x B P) (hB : B ≤ B') (hP : ∀ a, P a → P' a) : Deep x B' P' := fun s =>
  let ⟨l, h1, h2, h3⟩ := h s
  ⟨l, h1, fun d => Nat.le_trans (h2 d) (by omega), fun a ha => ⟨hP a (h3 a ha).1, (h3 a ha).2⟩⟩

theorem Deep.bind {x : M α} {f : α → M β} (hx : Deep x B P) (hf : ∀ a, P a → Deep (f a) B Q) : Deep (x >>= f) B Q := by
  intro s
  obtain ⟨l, h1, h2, h3⟩ := hx s
  show ∃ l, (M.bind x f s).2.events = _ ∧ _ ∧ ∀ a, (M.bind x f s).1 = .ok a → Q a ∧ _
  rcases hxs : x s with ⟨o, s'⟩
  rw [hxs] at h1 h3
  simp only at h1
  cases o with
  | ok a =>
    obtain ⟨m, h4, h5, h6⟩ := hf a (h3 a rfl).1 s'
    simp only [M.bind, hxs]
    refine ⟨l ++ m, by rw [h4, h1, List.append_assoc], fun d => ?_, fun b hb => ⟨(h6 b hb).1, fun d => ?_⟩⟩
    · rw [nesting_append, (h3 a rfl).2]
      have := h2 d; have := h5 d
      omega
    · rw [level_append, (h3 a rfl).2, (h6 b hb).2]
  | panic r => simp only [M.bind, hxs]; exact ⟨l, h1, h2, by simp⟩
  | timeout => simp only [M.bind, hxs]; exact ⟨l, h1, h2, by simp⟩

end

theorem deep_tracer {i : Info} {p : Trace.Parser} {c : Ctx} {B : Nat} {P : PRes → Prop} (h : Deep (p c) B P) : Deep (tracer i p c) (B + 1) P := by
  intro s
  obtain ⟨l, h1, h2, h3⟩ := h { s with events := s.events ++ [.before i c] }
  unfold tracer
  rcases hp : p c { s with events := s.events ++ [.before i c] } with ⟨o, s'⟩
  rw [hp] at h1 h3
  simp only at h1
  have hn : ∀ e d, (∀ k, nesting k [e] = k) → nesting d (Event.before i c :: (l ++ [e])) ≤ d + (B + 1) := fun e d he => by
    show nesting (d + 1) (l ++ [e]) ≤ _
    have := h2 (d + 1)
    have := level_le_nesting l (d + 1)
    rw [nesting_append, he]
    omega
  cases o with
  | ok r =>
    refine ⟨.before i c :: (l ++ [.after i r.1 r.2]), by simp [h1], fun d => hn _ d fun k => by simp [nesting], fun a ha => ?_⟩
    cases ha
    refine ⟨(h3 _ rfl).1, fun d => ?_⟩
    show level (d + 1) (l ++ [_]) = d
    rw [level_append, (h3 _ rfl).2]
    rfl
  | panic r => exact ⟨.before i c :: (l ++ [.panic i c r]), by simp [h1], fun d => hn _ d fun k => by simp [nesting], by simp⟩
  | timeout =>
    refine ⟨.before i c :: l, by simp [h1], fun d => ?_, by simp⟩
    have := h2 (d + 1)
    show nesting (d + 1) l ≤ _
    omega

theorem deep_wrap (i : Option Info) {p : Trace.Parser} {c : Ctx} {B : Nat} {P : PRes → Prop} (h : Deep (p c) B P) : Deep (wrap i p c) (B + 1) P := by
  cases i with
  | none => exact h.mono (by omega) fun _ h => h
  | some i => exact deep_tracer h

/-! ### Without recursion -/

/-- Computations that nest calls at most `B` deep, with any result. -/
abbrev Shallow {α : Type} (B : Nat) (x : M α) : Prop := Deep x B fun _ => True

section
variable {B : Nat}

theorem Shallow.bind {α β : Type} {x : M α} {f : α → M β} (hx : Shallow B x) (hf : ∀ a, Shallow B (f a)) : Shallow B (x >>= f) :=
  Deep.bind hx fun a _ => hf a

theorem shallow_lift {α : Type} (y : Out α) : Shallow B (lift y) := deep_lift fun _ _ => trivial

theorem shallow_pure {α : Type} (a : α) : Shallow B (pure a) := deep_pure trivial

theorem shallow_childLoop {te : Bool} {ps : List Trace.Parser} (h : ∀ p ∈ ps, ∀ c, Shallow B (p c)) : ∀ k c, Shallow B (Trace.childLoop te ps k c) := by
  induction ps with
  | nil => intro k c; exact shallow_pure _
  | cons p ps ih =>
    intro k c
    have ih := ih fun p hp => h p (by simp [hp])
    rw [Trace.childLoop]
    refine (h p (by simp) c).bind fun r => ?_
    simp only
    split
    · exact shallow_pure _
    · split
      · exact ih _ _
      · exact shallow_pure _
    · split
      · exact shallow_pure _
      · exact ih _ _

theorem shallow_iteration {fn : Option ImplFn} {te : Bool} {ps : List Trace.Parser} (h : ∀ p ∈ ps, ∀ c, Shallow B (p c)) (bottom count : Nat) (c : Ctx) :
    Shallow B (Trace.iteration fn te ps bottom count c) := by
  unfold Trace.iteration
  refine (shallow_childLoop h 0 c).bind fun r => ?_
  cases r with
  | ret o e => exact shallow_pure _
  | unmatched => exact shallow_pure _
  | fell k o =>
    simp only
    split
    · exact shallow_pure _
    · refine (shallow_lift _).bind fun r => ?_
      split <;> exact shallow_pure _

theorem shallow_parentLoop {u : Bool} {body : Nat → Ctx → M IterEnd} (h : ∀ k c, Shallow B (body k c)) :
    ∀ k count c, Shallow B (Trace.parentLoop u body k count c) := by
  intro k
  induction k with
  | zero =>
    intro count c
    unfold Trace.parentLoop
    split
    · exact shallow_lift _
    · exact shallow_pure _
  | succ k ih =>
    intro count c
    unfold Trace.parentLoop
    refine (h count c).bind fun r => ?_
    cases r with
    | ret o e => exact shallow_pure _
    | brk o => exact shallow_pure _
    | next o => exact ih _ _

theorem shallow_applyTrs {ts : List Trace.Transformer} (h : ∀ t ∈ ts, ∀ c l, Shallow B (t c l)) (c : Ctx) : ∀ l, Shallow B (Trace.applyTrs c ts l) := by
  induction ts with
  | nil => intro l; exact shallow_pure _
  | cons t ts ih =>
    intro l
    unfold Trace.applyTrs
    refine (h t (by simp) c l).bind fun r => ?_
    obtain ⟨l', e⟩ := r
    cases e with
    | none => exact ih (fun t ht => h t (by simp [ht])) l'
    | some e => exact shallow_pure _

theorem shallow_applyTransforms {tr : Option (List Trace.Transformer)} (h : ∀ ts, tr = some ts → ∀ t ∈ ts, ∀ c l, Shallow B (t c l)) (c o : Ctx) :
    Shallow B (Trace.applyTransforms tr c o) := by
  cases tr with
  | none => exact shallow_pure _
  | some ts =>
    simp only [Trace.applyTransforms]
    split
    · exact shallow_lift _
    · refine (shallow_applyTrs (h ts rfl) c _).bind fun r => ?_
      obtain ⟨l, e⟩ := r
      cases e <;> exact shallow_pure _

theorem shallow_base {fuel : Nat} {cls : String} {fn : Option ImplFn} {props : List PropItem} {ps : List Trace.Parser}
    {tr : Option (List Trace.Transformer)} (h : ∀ p ∈ ps, ∀ c, Shallow B (p c)) (htr : ∀ ts, tr = some ts → ∀ t ∈ ts, ∀ c l, Shallow B (t c l)) (c : Ctx) :
    Shallow B (Trace.base fuel cls fn props ps tr c) := by
  unfold Trace.base
  refine (shallow_parentLoop (fun k c => shallow_iteration h _ k c) _ _ _).bind fun r => ?_
  cases r with
  | ret o e => exact shallow_pure _
  | done m o =>
    show Shallow B (Trace.afterLoop _ _ _ _ _ _)
    unfold Trace.afterLoop
    simp only
    split
    · exact shallow_pure _
    · refine (shallow_lift _).bind fun r => ?_
      split
      · exact shallow_pure _
      · exact shallow_applyTransforms htr _ _

theorem shallow_light {cls : String} {p : Trace.Parser} {c : Ctx} (h : Shallow B (p c)) : Shallow B (light cls p c) :=
  h.bind fun _ => shallow_pure _

theorem shallow_lookBehind {neg : Bool} {p : Trace.Parser} (h : ∀ c, Shallow B (p c)) (c : Ctx) :
    ∀ (k : Nat) (i : Int), Shallow B (Trace.lookBehindLoop neg p c k i) := by
  intro k
  induction k with
  | zero => intro i; exact shallow_pure _
  | succ k ih =>
    intro i
    rw [Trace.lookBehindLoop]
    split
    · exact ih _
    · refine (h _).bind fun r => ?_
      obtain ⟨o, err⟩ := r
      cases err with
      | some err => exact shallow_pure _
      | none =>
        simp only
        split
        · split <;> exact shallow_pure _
        · exact ih _

theorem shallow_match {k : Int} {cases : List ((List Ast → Bool) × List Trace.Transformer)} (h : ∀ x ∈ cases, ∀ t ∈ x.2, ∀ c l, Shallow B (t c l)) (c : Ctx) :
    Shallow B (Trace.matchFn k cases c) := by
  induction cases with
  | nil => exact shallow_pure _
  | cons x cases ih =>
    obtain ⟨g, ts⟩ := x
    unfold Trace.matchFn
    split
    · simp only
      split
      · exact shallow_lift _
      · refine (shallow_applyTrs (h (g, ts) (by simp)) _ _).bind fun r => ?_
        obtain ⟨l, err⟩ := r
        cases err <;> exact shallow_pure _
    · exact ih fun x hx => h x (by simp [hx])

theorem shallow_tryRules {ps : List Trace.Parser} (h : ∀ p ∈ ps, ∀ c, Shallow B (p c)) (c : Ctx) (l : List Ast) (k : Nat) :
    Shallow B (Trace.tryRules c l k ps) := by
  induction ps with
  | nil => exact shallow_pure _
  | cons p ps ih =>
    unfold Trace.tryRules
    refine (h p (by simp) _).bind fun r => ?_
    obtain ⟨o, err⟩ := r
    cases err with
    | some err => exact shallow_pure _
    | none =>
      simp only
      split
      · exact ih fun p hp => h p (by simp [hp])
      · split
        · exact shallow_lift _
        · exact shallow_pure _

theorem shallow_tryPositions {ps : List Trace.Parser} (h : ∀ p ∈ ps, ∀ c, Shallow B (p c)) (c : Ctx) (l : List Ast) (rtol : Bool) :
    ∀ k i, Shallow B (Trace.tryPositions c l ps rtol k i) := by
  intro k
  induction k with
  | zero => intro i; exact shallow_pure _
  | succ k ih =>
    intro i
    unfold Trace.tryPositions
    refine (shallow_tryRules h c l _).bind fun r => ?_
    cases r with
    | noMatch => exact ih _
    | err e => exact shallow_pure _
    | rewritten l => exact shallow_pure _

theorem shallow_tryPrecedences {precs : List (List Trace.Parser × Bool)} (h : ∀ x ∈ precs, ∀ p ∈ x.1, ∀ c, Shallow B (p c)) (tag : Value) (l : List Ast) :
    Shallow B (Trace.tryPrecedences tag l precs) := by
  induction precs with
  | nil => exact shallow_pure _
  | cons x precs ih =>
    obtain ⟨ps, rtol⟩ := x
    unfold Trace.tryPrecedences
    refine (shallow_tryPositions (h _ (List.mem_cons_self ..)) _ l rtol _ _).bind fun r => ?_
    cases r with
    | noMatch => exact ih fun x hx => h x (by simp [hx])
    | err e => exact shallow_pure _
    | rewritten l => exact shallow_pure _

theorem shallow_production {precs : List (List Trace.Parser × Bool)} {check : Trace.Parser} (h : ∀ x ∈ precs, ∀ p ∈ x.1, ∀ c, Shallow B (p c))
    (hc : ∀ c, Shallow B (check c)) (tag : Value) : ∀ n l, Shallow B (Trace.productionLoop precs check tag n l) := by
  have hcheck : ∀ l, Shallow B (Trace.checkHolds check tag l) := fun l => (hc _).bind fun _ => shallow_pure _
  intro n
  induction n with
  | zero => intro l; exact shallow_lift _
  | succ n ih =>
    intro l
    unfold Trace.productionLoop
    refine (shallow_tryPrecedences h tag l).bind fun r => ?_
    cases r with
    | err e => exact shallow_pure _
    | noMatch =>
      refine (hcheck l).bind fun b => ?_
      cases b <;> exact shallow_pure _
    | rewritten l' =>
      refine (hcheck l').bind fun b => ?_
      cases b
      · exact ih l'
      · exact shallow_pure _

end

/-- What is shown of an item. -/
def ShallowItem (tenv : TEnv) (B n : Nat) : TItem → Prop
  | .gram g => ∀ c, Shallow B (TGram.run tenv n g c)
  | .tr t => ∀ c l, Shallow B (TTr.run tenv n t c l)

/-- Calls are nested no deeper than the grammar. -/
theorem tall_shallow {tenv : TEnv} {k : Nat} {f : TItem} (h : Tall tenv k f) : ∀ n, ShallowItem tenv k n f := by
  have hmap : ∀ {k n : Nat} {gs : List TGram}, (∀ g ∈ gs, ∀ c, Shallow k (TGram.run tenv n g c)) → ∀ p ∈ gs.map (TGram.run tenv n), ∀ c, Shallow k (p c) := by
    intro k n gs h p hp
    obtain ⟨g, hg, rfl⟩ := List.mem_map.1 hp
    exact h g hg
  have hmapT : ∀ {k n : Nat} {ts : List TTr}, (∀ t ∈ ts, ∀ c l, Shallow k (TTr.run tenv n t c l)) → ∀ p ∈ ts.map (TTr.run tenv n), ∀ c l, Shallow k (p c l) := by
    intro k n gs h p hp
    obtain ⟨g, hg, rfl⟩ := List.mem_map.1 hp
    exact h g hg
  induction h with
  | @le k k' f _ hk ih =>
    intro n
    cases f with
    | gram g => exact fun c => (ih n c).mono hk fun _ h => h
    | tr t => exact fun c l => (ih n c l).mono hk fun _ h => h
  | prim =>
    intro n
    cases n with
    | zero => exact fun c => shallow_lift _
    | succ n => exact fun c => deep_wrap _ (shallow_lift _)
  | flatGroup _ ih | first _ ih | lookAhead _ ih | lookAheadN _ ih | «repeat» _ ih | debug _ ih =>
    intro n
    cases n with
    | zero => exact fun c => shallow_lift _
    | succ n => exact fun c => deep_wrap _ (shallow_base (hmap fun g hg => ih g hg n) (by simp) c)
  | group _ ih =>
    intro n
    cases n with
    | zero => exact fun c => shallow_lift _
    | succ n =>
      refine fun c => deep_wrap _ (shallow_base (hmap fun g hg => ih g hg n) ?_ c)
      rintro _ ⟨⟩ t ht c l
      cases List.mem_singleton.1 ht
      exact shallow_lift _
  | lookBehind _ ih | lookBehindN _ ih =>
    intro n
    cases n with
    | zero => exact fun c => shallow_lift _
    | succ n => exact fun c => shallow_lookBehind (fun c => deep_wrap _ (shallow_base (hmap fun g hg => ih g hg n) (by simp) c)) c _ _
  | @trans k i g ts _ _ ih ih' =>
    intro n
    cases n with
    | zero => exact fun c => shallow_lift _
    | succ n =>
      refine fun c => deep_wrap _ (shallow_base ?_ ?_ c)
      · intro p hp
        cases List.mem_singleton.1 hp
        exact ih n
      · intro us hu
        split at hu
        · cases hu
        · cases hu; exact hmapT fun t ht => ih' t ht n
  | indirect _ ih =>
    intro n
    cases n with
    | zero => exact fun c => shallow_lift _
    | succ n => exact fun c => deep_wrap _ (shallow_light fun s => ih s.clock n c { s with clock := s.clock + 1 })
  | «match» _ ih =>
    intro n
    cases n with
    | zero => exact fun c => shallow_lift _
    | succ n =>
      refine fun c => deep_wrap _ (shallow_light (shallow_match ?_ c))
      intro x hx
      obtain ⟨y, hy, rfl⟩ := List.mem_map.1 hx
      exact hmapT fun t ht => ih y hy t ht n
  | @base k i cls fn props gs tr _ _ ih ih' =>
    intro n
    cases n with
    | zero => exact fun c => shallow_lift _
    | succ n =>
      refine fun c => deep_wrap _ (shallow_base (hmap fun g hg => ih g hg n) ?_ c)
      intro us hu
      cases tr with
      | none => cases hu
      | some ts => cases hu; exact hmapT fun t ht => ih' ts rfl t ht n
  | fn =>
    intro n
    cases n with
    | zero => exact fun c l => shallow_lift _
    | succ n => exact fun c l => shallow_lift _
  | production _ _ ih ih' =>
    intro n
    cases n with
    | zero => exact fun c l => shallow_lift _
    | succ n =>
      refine fun c l => shallow_production ?_ (ih' n) _ _ _
      intro x hx
      obtain ⟨y, hy, rfl⟩ := List.mem_map.1 hx
      exact hmap fun g hg => ih y hy g hg n

end Takenoco
