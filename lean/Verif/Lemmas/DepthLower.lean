import Verif.Lemmas.Depth
import Verif.Lemmas.CostLower
/-
Lower bounds for the nesting of parser calls.
-/
namespace Takenoco
open Spec Trace

/-- The computation ends normally, with a result with `P`, and nests calls at least `B` deep. -/
def Reach {α : Type} (x : M α) (B : Nat) (P : α → Prop) : Prop :=
  ∀ s, ∃ l, (x s).2.events = s.events ++ l ∧ (∀ d, d + B ≤ nesting d l ∧ level d l = d) ∧ ∃ a, (x s).1 = .ok a ∧ P a

section
variable {α β : Type} {B B' : Nat} {P : α → Prop} {Q : β → Prop}

theorem reach_lift {y : Out α} (h : ∃ a, y = .ok a ∧ P a) : Reach (lift y) 0 P :=
  fun _ => ⟨[], by simp [lift], fun _ => ⟨Nat.le_refl _, rfl⟩, h⟩

theorem reach_pure {a : α} (h : P a) : Reach (pure a) 0 P :=
  fun _ => ⟨[], by simp [pure], fun _ => ⟨Nat.le_refl _, rfl⟩, a, rfl, h⟩

theorem Reach.mono {x : M α} {P' : α → Prop} (h : Reach x B P) (hB : B' ≤ B) (hP : ∀ a, P a → P' a) : Reach x B' P' := fun s =>
  let ⟨l, h1, h2, a, h3, h4⟩ := h s
  ⟨l, h1, fun d => ⟨Nat.le_trans (by omega) (h2 d).1, (h2 d).2⟩, a, h3, hP a h4⟩

theorem Reach.bind {x : M α} {f : α → M β} (hx : Reach x B P) (hf : ∀ a, P a → Reach (f a) B' Q) : Reach (x >>= f) (max B B') Q := by
  intro s
  obtain ⟨l, h1, h2, a, h3, h4⟩ := hx s
  show ∃ l, (M.bind x f s).2.events = _ ∧ _ ∧ ∃ a, (M.bind x f s).1 = .ok a ∧ Q a
  rcases hxs : x s with ⟨o, s'⟩
  rw [hxs] at h1 h3
  simp only at h1 h3
  subst h3
  obtain ⟨m, h5, h6, h7⟩ := hf a h4 s'
  simp only [M.bind, hxs]
  refine ⟨l ++ m, by rw [h5, h1, List.append_assoc], fun d => ⟨?_, ?_⟩, h7⟩
  · rw [nesting_append, (h2 d).2]
    have := (h2 d).1; have := (h6 d).1
    omega
  · rw [level_append, (h2 d).2, (h6 d).2]

/-- The second computation need not call anything. -/
theorem Reach.bind₀ {x : M α} {f : α → M β} (hx : Reach x B P) (hf : ∀ a, P a → Reach (f a) 0 Q) : Reach (x >>= f) B Q :=
  (hx.bind hf).mono (Nat.le_max_left _ _) fun _ h => h

end

theorem reach_counted (i : Info) {p : Trace.Parser} {c : Ctx} {B : Nat} {P : PRes → Prop} (h : Reach (p c) B P) : Reach (wrap (some i) p c) (B + 1) P := by
  intro s
  obtain ⟨l, h1, h2, a, h3, h4⟩ := h { s with events := s.events ++ [.before i c] }
  show ∃ l, (tracer i p c s).2.events = _ ∧ _ ∧ ∃ a, (tracer i p c s).1 = .ok a ∧ P a
  unfold tracer
  rcases hp : p c { s with events := s.events ++ [.before i c] } with ⟨o, s'⟩
  rw [hp] at h1 h3
  simp only at h1 h3
  subst h3
  obtain ⟨o, e⟩ := a
  refine ⟨.before i c :: (l ++ [.after i o e]), by simp [h1], fun d => ⟨?_, ?_⟩, (o, e), rfl, h4⟩
  · show _ ≤ nesting (d + 1) (l ++ [_])
    have := (h2 (d + 1)).1
    rw [nesting_append]
    omega
  · show level (d + 1) (l ++ [_]) = d
    rw [level_append, (h2 (d + 1)).2]
    rfl

theorem reach_wrap (i : Option Info) {p : Trace.Parser} {c : Ctx} {B : Nat} {P : PRes → Prop} (h : Reach (p c) B P) : Reach (wrap i p c) B P := by
  cases i with
  | none => exact h
  | some i => exact (reach_counted i h).mono (by omega) fun _ h => h

variable {str : Bytes}

theorem reach_seq_hit {w rest : Bytes} {c : Ctx} (h : Facing str c (w ++ rest)) : Reach (lift (seqS w c)) 0 (Taken str rest) := by
  obtain ⟨_, rfl, pre, h1, h2⟩ := h
  have : hasPrefixAt w c = true := by rw [hasPrefixAt_iff _ _ (by simp [h1, h2])]; simp [h1, h2]
  rw [seqS_eq, if_pos this]
  exact reach_lift ⟨_, rfl, rfl, rfl, rfl, pre ++ w, by simp [tokenMatched, pushStr, h1], by simp [tokenMatched, pushStr, h2]⟩

theorem reach_seq_miss {w rest : Bytes} {c : Ctx} (h : Facing str c rest) (hw : ¬ w <+: rest) : Reach (lift (seqS w c)) 0 Missed := by
  obtain ⟨_, rfl, pre, h1, h2⟩ := h
  have : ¬ hasPrefixAt w c = true := by rw [hasPrefixAt_iff _ _ (by simp [h1, h2])]; simpa [h1, h2] using hw
  rw [seqS_eq, if_neg this]
  exact reach_lift ⟨_, rfl, rfl, rfl⟩

theorem reach_child {te : Bool} {p : Trace.Parser} {ps : List Trace.Parser} {k B B' : Nat} {c : Ctx} {rest : Bytes} {P : ChildEnd → Prop}
    (h : Reach (p c) B (Taken str rest)) (hte : te = false) (h' : ∀ o, Facing str o rest → Reach (Trace.childLoop te ps (k + 1) o) B' P) :
    Reach (Trace.childLoop te (p :: ps) k c) (max B B') P := by
  rw [Trace.childLoop]
  refine h.bind fun r hr => ?_
  obtain ⟨o, err⟩ := r
  obtain ⟨he, hs⟩ := hr
  simp only at he hs
  subst he hte
  have hst := hs.1
  simp only [fixStatus, Option.isSome_none, Bool.false_eq_true, false_and, if_false, hst]
  exact h' o hs

theorem reach_child_miss {p : Trace.Parser} {ps : List Trace.Parser} {k B : Nat} {c : Ctx} (h : Reach (p c) B Missed) :
    Reach (Trace.childLoop false (p :: ps) k c) B (fun r => r = .unmatched) := by
  rw [Trace.childLoop]
  refine h.bind₀ fun r hr => ?_
  obtain ⟨o, err⟩ := r
  obtain ⟨he, hs⟩ := hr
  simp only at he hs
  subst he
  simp only [fixStatus, Option.isSome_none, Bool.false_eq_true, false_and, if_false, hs]
  exact reach_pure rfl

theorem reach_alt_miss {p : Trace.Parser} {ps : List Trace.Parser} {k B B' : Nat} {c : Ctx} {P : ChildEnd → Prop}
    (h : Reach (p c) B Missed) (h' : Reach (Trace.childLoop true ps k c) B' P) : Reach (Trace.childLoop true (p :: ps) k c) (max B B') P := by
  rw [Trace.childLoop]
  refine h.bind fun r hr => ?_
  obtain ⟨o, err⟩ := r
  obtain ⟨he, hs⟩ := hr
  simp only at he hs
  subst he
  simp only [fixStatus, Option.isSome_none, Bool.false_eq_true, false_and, if_false, hs]
  exact h'

theorem reach_alt_hit {p : Trace.Parser} {ps : List Trace.Parser} {k B : Nat} {c : Ctx} {rest : Bytes}
    (h : Reach (p c) B (Taken str rest)) : Reach (Trace.childLoop true (p :: ps) k c) B (fun r => ∃ o, r = .fell (k + 1) o ∧ Facing str o rest) := by
  rw [Trace.childLoop]
  refine h.bind₀ fun r hr => ?_
  obtain ⟨o, err⟩ := r
  obtain ⟨he, hs⟩ := hr
  simp only at he hs
  subst he
  have hst := hs.1
  simp only [fixStatus, Option.isSome_none, Bool.false_eq_true, false_and, if_false, hst]
  exact reach_pure ⟨o, rfl, hs⟩

theorem reach_base_hit {te : Bool} {cls : String} {props : List PropItem} (hp : readProps props = ⟨false, te, false, qtyOnce⟩) {ps : List Trace.Parser} {B : Nat}
    {c : Ctx} {rest : Bytes} (h : Reach (Trace.childLoop te ps 0 { c with cls := cls, status := .matched }) B (fun r => ∃ k o, r = .fell (k + 1) o ∧ Facing str o rest)) :
    Reach (Trace.base 0 cls none props ps none c) B (Taken str rest) := by
  unfold Trace.base
  simp only [hp, qtyOnce]
  have hone : Reach (Trace.parentLoop false (Trace.iteration none te ps c.stack.length) 1 0 { c with cls := cls, status := .matched }) B
      (fun r => ∃ o, r = .done 1 o ∧ Facing str o rest) := by
    unfold Trace.parentLoop Trace.iteration
    refine Reach.bind₀ (P := fun r => ∃ o, r = .next o ∧ Facing str o rest) (Reach.bind₀ h fun r hr => ?_) fun r hr => ?_
    · obtain ⟨k, o, rfl, ho⟩ := hr
      simp only [Nat.add_one_ne_zero, and_false, if_false]
      refine Reach.bind₀ (P := fun r => r = ({ o with qty := 0 }, none)) (reach_lift ⟨_, rfl, rfl⟩) ?_
      rintro _ rfl
      simp only [ho.1]
      exact reach_pure ⟨_, rfl, ⟨rfl, ho.2⟩⟩
    · obtain ⟨o, rfl, ho⟩ := hr
      exact reach_pure ⟨o, rfl, ho⟩
  refine Reach.bind₀ hone fun r hr => ?_
  obtain ⟨o, rfl, ho⟩ := hr
  simp only [Trace.afterLoop, negateStatus, checkMin, Bool.false_eq_true, if_false]
  rw [if_neg (show ¬ (0 ≤ (1 : Int) ∧ ((1 : Nat) : Int) < 1) by decide)]
  simp only [ho.1, ne_eq, not_true_eq_false, if_false]
  refine Reach.bind₀ (P := fun r => r = ({ o with qty := 1, status := .matched }, none)) (reach_lift ⟨_, rfl, rfl⟩) ?_
  rintro _ rfl
  simp only [not_true_eq_false, if_false]
  exact reach_pure ⟨rfl, rfl, ho.2⟩

theorem reach_base_miss {te : Bool} {cls : String} {props : List PropItem} (hp : readProps props = ⟨false, te, false, qtyOnce⟩) {ps : List Trace.Parser} {B : Nat}
    {c : Ctx} (h : Reach (Trace.childLoop te ps 0 { c with cls := cls, status := .matched }) B (fun r => r = .unmatched)) :
    Reach (Trace.base 0 cls none props ps none c) B Missed := by
  unfold Trace.base
  simp only [hp, qtyOnce]
  have hone : Reach (Trace.parentLoop false (Trace.iteration none te ps c.stack.length) 1 0 { c with cls := cls, status := .matched }) B
      (fun r => ∃ o, r = .done 0 o) := by
    unfold Trace.parentLoop Trace.iteration
    refine Reach.bind₀ (P := fun r => ∃ o, r = .brk o) (Reach.bind₀ h fun r hr => ?_) fun r hr => ?_
    · subst hr; exact reach_pure ⟨_, rfl⟩
    · obtain ⟨o, rfl⟩ := hr
      exact reach_pure ⟨o, rfl⟩
  refine Reach.bind₀ hone fun r hr => ?_
  obtain ⟨o, rfl⟩ := hr
  exact reach_pure ⟨rfl, rfl⟩

theorem reach_light {cls : String} {p : Trace.Parser} {B : Nat} {c : Ctx} {rest : Bytes} (h : Reach (p c) B (Taken str rest)) :
    Reach (light cls p c) B (Taken str rest) := by
  unfold light
  refine h.bind₀ fun r hr => ?_
  obtain ⟨o, err⟩ := r
  obtain ⟨he, hs⟩ := hr
  simp only at he hs
  subst he
  have hst := hs.1
  simp only [fixStatus, Option.isSome_none, Bool.false_eq_true, false_and, if_false, hst, if_true]
  exact reach_pure ⟨rfl, rfl, hs.2⟩

/-! ### Nested brackets -/

theorem bracketed_reach (i : Info) (n : Nat) : ∀ N, 3 * n + 3 ≤ N → ∀ c rest, Facing str c (bracketText n ++ rest) →
    Reach ((bracketed i).run (fun _ _ => bracketed i) N c) (3 * n + 3) (Taken str rest) := by
  induction n with
  | zero =>
    intro N hN c rest hc
    match N, hN with
    | N + 3, _ =>
    refine reach_counted (B := 2) _ (reach_base_hit (te := true) rfl ?_)
    simp only [List.map_cons, List.map_nil]
    have hc := facing_base hc ":base:First"
    have miss : Reach (TGram.run (fun _ _ => bracketed i) (N + 2)
        (.flatGroup (some i) [.prim (some i) none (seqS (b! "(")), .indirect (some i) 0, .prim (some i) none (seqS (b! ")"))])
          { c with cls := ":base:First", status := .matched }) 2 Missed := by
      refine reach_counted _ (reach_base_miss (te := false) rfl ?_)
      exact reach_child_miss (reach_counted _ (reach_seq_miss (facing_base hc _) (by simp [bracketText])))
    have hit : Reach (TGram.run (fun _ _ => bracketed i) (N + 2) (.prim (some i) none (seqS (b! "x"))) { c with cls := ":base:First", status := .matched }) 1 (Taken str rest) :=
      reach_counted i (reach_seq_hit (by simpa [bracketText] using hc))
    refine (reach_alt_miss miss (reach_alt_hit hit)).mono (by omega) fun r h => ?_
    obtain ⟨o, h⟩ := h; exact ⟨0, o, h⟩
  | succ n ih =>
    intro N hN c rest hc
    match N, hN with
    | N + 3, hN =>
    have hsplit : bracketText (n + 1) ++ rest = b! "(" ++ (bracketText n ++ (b! ")" ++ rest)) := by
      rw [bracketText, List.replicate_succ' (a := (0x29 : UInt8))]
      simp [bracketText, List.replicate_succ]
    rw [hsplit] at hc
    refine (reach_counted (B := 3 * n + 5) _ (reach_base_hit (te := true) rfl ?_)).mono (by omega) fun _ h => h
    simp only [List.map_cons, List.map_nil]
    have hc := facing_base hc ":base:First"
    have inner : ∀ c, Facing str c (bracketText n ++ (b! ")" ++ rest)) →
        Reach (TGram.run (fun _ _ => bracketed i) (N + 1) (.indirect (some i) 0) c) (3 * n + 4) (Taken str (b! ")" ++ rest)) := by
      intro c hc
      refine reach_counted i (reach_light ?_)
      intro s
      exact ih N (by omega) c _ hc { s with clock := s.clock + 1 }
    have hit : Reach (TGram.run (fun _ _ => bracketed i) (N + 2)
        (.flatGroup (some i) [.prim (some i) none (seqS (b! "(")), .indirect (some i) 0, .prim (some i) none (seqS (b! ")"))])
          { c with cls := ":base:First", status := .matched }) (3 * n + 5) (Taken str rest) := by
      refine reach_counted _ (reach_base_hit (te := false) rfl ?_)
      refine Reach.mono (B := max 0 (max (3 * n + 4) (max 0 0))) ?_ (by omega) fun _ h => h
      refine reach_child (reach_wrap (some i) (reach_seq_hit (facing_base hc _))) rfl fun o ho => reach_child (inner o ho) rfl fun o ho => ?_
      exact reach_child (reach_wrap (some i) (reach_seq_hit ho)) rfl fun o ho => reach_pure ⟨2, o, rfl, ho⟩
    refine (reach_alt_hit hit).mono (by omega) fun r h => ?_
    obtain ⟨o, h⟩ := h; exact ⟨0, o, h⟩

end Takenoco
