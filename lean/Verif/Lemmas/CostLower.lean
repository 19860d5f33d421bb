import Verif.Lemmas.Cost
import Verif.Lemmas.Terminals
/-
Lower bounds for the number of parser calls.
-/
namespace Takenoco
open Spec Trace

/-- The computation ends normally, with a result with `P`, after at least `B` calls. -/
def Lower {α : Type} (x : M α) (B : Nat) (P : α → Prop) : Prop :=
  ∀ s, callCount s.events + B ≤ callCount (x s).2.events ∧ ∃ a, (x s).1 = .ok a ∧ P a

section
variable {α β : Type} {B B' : Nat} {P : α → Prop} {Q : β → Prop}

theorem lower_lift {y : Out α} (h : ∃ a, y = .ok a ∧ P a) : Lower (lift y) 0 P := fun _ => ⟨Nat.le_refl _, h⟩

theorem lower_pure {a : α} (h : P a) : Lower (pure a) 0 P := fun _ => ⟨Nat.le_refl _, a, rfl, h⟩

theorem Lower.mono {x : M α} {P' : α → Prop} (h : Lower x B P) (hB : B' ≤ B) (hP : ∀ a, P a → P' a) : Lower x B' P' :=
  fun s => ⟨Nat.le_trans (by omega) (h s).1, let ⟨a, h1, h2⟩ := (h s).2; ⟨a, h1, hP a h2⟩⟩

theorem Lower.bind {x : M α} {f : α → M β} (hx : Lower x B P) (hf : ∀ a, P a → Lower (f a) B' Q) : Lower (x >>= f) (B + B') Q := by
  intro s
  obtain ⟨h1, a, h2, h3⟩ := hx s
  show _ ≤ callCount (M.bind x f s).2.events ∧ ∃ a, (M.bind x f s).1 = .ok a ∧ Q a
  rcases hxs : x s with ⟨o, s'⟩
  rw [hxs] at h1 h2
  simp only at h1 h2
  subst h2
  obtain ⟨h4, h5⟩ := hf a h3 s'
  simp only [M.bind, hxs]
  exact ⟨by omega, h5⟩

/-- The second computation costs nothing that is counted. -/
theorem Lower.bind₀ {x : M α} {f : α → M β} (hx : Lower x B P) (hf : ∀ a, P a → Lower (f a) 0 Q) : Lower (x >>= f) B Q := hx.bind hf

end

theorem lower_counted (i : Info) {p : Trace.Parser} {c : Ctx} {B : Nat} {P : PRes → Prop} (h : Lower (p c) B P) : Lower (wrap (some i) p c) (1 + B) P := by
  intro s
  obtain ⟨h1, a, h2, h3⟩ := h { s with events := s.events ++ [.before i c] }
  show _ ≤ callCount (tracer i p c s).2.events ∧ ∃ a, (tracer i p c s).1 = .ok a ∧ P a
  unfold tracer
  rcases hp : p c { s with events := s.events ++ [.before i c] } with ⟨o, s'⟩
  rw [hp] at h1 h2
  simp only at h2
  subst h2
  simp only [callCount_append, show callCount [Event.before i c] = 1 from rfl] at h1
  obtain ⟨o, e⟩ := a
  refine ⟨?_, (o, e), rfl, h3⟩
  simp only [callCount_append, show callCount [Event.after i o e] = 0 from rfl]; omega

theorem lower_wrap (i : Option Info) {p : Trace.Parser} {c : Ctx} {B : Nat} {P : PRes → Prop} (h : Lower (p c) B P) : Lower (wrap i p c) B P := by
  cases i with
  | none => exact h
  | some i => exact (lower_counted i h).mono (by omega) fun _ h => h

/-! ### The engine -/

/-- `rest` is what is left of the source `str`. -/
def Facing (str : Bytes) (c : Ctx) (rest : Bytes) : Prop := c.status = .matched ∧ c.str = str ∧ ∃ pre, str = pre ++ rest ∧ c.pos = pre.length

/-- A match, up to `rest`. -/
def Taken (str : Bytes) (rest : Bytes) (r : PRes) : Prop := r.2 = none ∧ Facing str r.1 rest

/-- No match. -/
def Missed (r : PRes) : Prop := r.2 = none ∧ r.1.status = .unmatched

variable {str : Bytes}

theorem lower_seq_hit {w rest : Bytes} {c : Ctx} (h : Facing str c (w ++ rest)) : Lower (lift (seqS w c)) 0 (Taken str rest) := by
  obtain ⟨_, rfl, pre, h1, h2⟩ := h
  have : hasPrefixAt w c = true := by rw [hasPrefixAt_iff _ _ (by simp [h1, h2])]; simp [h1, h2]
  rw [seqS_eq, if_pos this]
  exact lower_lift ⟨_, rfl, rfl, rfl, rfl, pre ++ w, by simp [tokenMatched, pushStr, h1], by simp [tokenMatched, pushStr, h2]⟩

theorem lower_seq_miss {w rest : Bytes} {c : Ctx} (h : Facing str c rest) (hw : ¬ w <+: rest) : Lower (lift (seqS w c)) 0 Missed := by
  obtain ⟨_, rfl, pre, h1, h2⟩ := h
  have : ¬ hasPrefixAt w c = true := by rw [hasPrefixAt_iff _ _ (by simp [h1, h2])]; simpa [h1, h2] using hw
  rw [seqS_eq, if_neg this]
  exact lower_lift ⟨_, rfl, rfl, rfl⟩

theorem lower_child {te : Bool} {p : Trace.Parser} {ps : List Trace.Parser} {k B B' : Nat} {c : Ctx} {rest : Bytes} {P : ChildEnd → Prop}
    (h : Lower (p c) B (Taken str rest)) (hte : te = false) (h' : ∀ o, Facing str o rest → Lower (Trace.childLoop te ps (k + 1) o) B' P) :
    Lower (Trace.childLoop te (p :: ps) k c) (B + B') P := by
  rw [Trace.childLoop]
  refine h.bind fun r hr => ?_
  obtain ⟨o, err⟩ := r
  obtain ⟨he, hs⟩ := hr
  simp only at he hs
  subst he hte
  have hst := hs.1
  simp only [fixStatus, Option.isSome_none, Bool.false_eq_true, false_and, if_false, hst]
  exact h' o hs

theorem lower_child_miss {p : Trace.Parser} {ps : List Trace.Parser} {k B : Nat} {c : Ctx} (h : Lower (p c) B Missed) :
    Lower (Trace.childLoop false (p :: ps) k c) B (fun r => r = .unmatched) := by
  rw [Trace.childLoop]
  refine h.bind₀ fun r hr => ?_
  obtain ⟨o, err⟩ := r
  obtain ⟨he, hs⟩ := hr
  simp only at he hs
  subst he
  simp only [fixStatus, Option.isSome_none, Bool.false_eq_true, false_and, if_false, hs]
  exact lower_pure rfl

theorem lower_alt_miss {p : Trace.Parser} {ps : List Trace.Parser} {k B B' : Nat} {c : Ctx} {P : ChildEnd → Prop}
    (h : Lower (p c) B Missed) (h' : Lower (Trace.childLoop true ps k c) B' P) : Lower (Trace.childLoop true (p :: ps) k c) (B + B') P := by
  rw [Trace.childLoop]
  refine h.bind fun r hr => ?_
  obtain ⟨o, err⟩ := r
  obtain ⟨he, hs⟩ := hr
  simp only at he hs
  subst he
  simp only [fixStatus, Option.isSome_none, Bool.false_eq_true, false_and, if_false, hs]
  exact h'

theorem lower_alt_hit {p : Trace.Parser} {ps : List Trace.Parser} {k B : Nat} {c : Ctx} {rest : Bytes}
    (h : Lower (p c) B (Taken str rest)) : Lower (Trace.childLoop true (p :: ps) k c) B (fun r => ∃ o, r = .fell (k + 1) o ∧ Facing str o rest) := by
  rw [Trace.childLoop]
  refine h.bind₀ fun r hr => ?_
  obtain ⟨o, err⟩ := r
  obtain ⟨he, hs⟩ := hr
  simp only at he hs
  subst he
  have hst := hs.1
  simp only [fixStatus, Option.isSome_none, Bool.false_eq_true, false_and, if_false, hst]
  exact lower_pure ⟨o, rfl, hs⟩

theorem facing_base {c : Ctx} {rest : Bytes} (h : Facing str c rest) (cls : String) : Facing str { c with cls := cls, status := .matched } rest :=
  ⟨rfl, h.2⟩

theorem lower_base_hit {te : Bool} {cls : String} {props : List PropItem} (hp : readProps props = ⟨false, te, false, qtyOnce⟩) {ps : List Trace.Parser} {B : Nat}
    {c : Ctx} {rest : Bytes} (h : Lower (Trace.childLoop te ps 0 { c with cls := cls, status := .matched }) B (fun r => ∃ k o, r = .fell (k + 1) o ∧ Facing str o rest)) :
    Lower (Trace.base 0 cls none props ps none c) B (Taken str rest) := by
  unfold Trace.base
  simp only [hp, qtyOnce]
  have hone : Lower (Trace.parentLoop false (Trace.iteration none te ps c.stack.length) 1 0 { c with cls := cls, status := .matched }) B
      (fun r => ∃ o, r = .done 1 o ∧ Facing str o rest) := by
    unfold Trace.parentLoop Trace.iteration
    refine Lower.bind₀ (P := fun r => ∃ o, r = .next o ∧ Facing str o rest) (Lower.bind₀ h fun r hr => ?_) fun r hr => ?_
    · obtain ⟨k, o, rfl, ho⟩ := hr
      simp only [Nat.add_one_ne_zero, and_false, if_false]
      refine Lower.bind₀ (P := fun r => r = ({ o with qty := 0 }, none)) (lower_lift ⟨_, rfl, rfl⟩) ?_
      rintro _ rfl
      simp only [ho.1]
      exact lower_pure ⟨_, rfl, ⟨rfl, ho.2⟩⟩
    · obtain ⟨o, rfl, ho⟩ := hr
      exact lower_pure ⟨o, rfl, ho⟩
  refine Lower.bind₀ hone fun r hr => ?_
  obtain ⟨o, rfl, ho⟩ := hr
  simp only [Trace.afterLoop, negateStatus, checkMin, Bool.false_eq_true, if_false]
  rw [if_neg (show ¬ (0 ≤ (1 : Int) ∧ ((1 : Nat) : Int) < 1) by decide)]
  simp only [ho.1, ne_eq, not_true_eq_false, if_false]
  refine Lower.bind₀ (P := fun r => r = ({ o with qty := 1, status := .matched }, none)) (lower_lift ⟨_, rfl, rfl⟩) ?_
  rintro _ rfl
  simp only [not_true_eq_false, if_false]
  exact lower_pure ⟨rfl, rfl, ho.2⟩

theorem lower_base_miss {te : Bool} {cls : String} {props : List PropItem} (hp : readProps props = ⟨false, te, false, qtyOnce⟩) {ps : List Trace.Parser} {B : Nat}
    {c : Ctx} (h : Lower (Trace.childLoop te ps 0 { c with cls := cls, status := .matched }) B (fun r => r = .unmatched)) :
    Lower (Trace.base 0 cls none props ps none c) B Missed := by
  unfold Trace.base
  simp only [hp, qtyOnce]
  have hone : Lower (Trace.parentLoop false (Trace.iteration none te ps c.stack.length) 1 0 { c with cls := cls, status := .matched }) B
      (fun r => ∃ o, r = .done 0 o) := by
    unfold Trace.parentLoop Trace.iteration
    refine Lower.bind₀ (P := fun r => ∃ o, r = .brk o) (Lower.bind₀ h fun r hr => ?_) fun r hr => ?_
    · subst hr; exact lower_pure ⟨_, rfl⟩
    · obtain ⟨o, rfl⟩ := hr
      exact lower_pure ⟨o, rfl⟩
  refine Lower.bind₀ hone fun r hr => ?_
  obtain ⟨o, rfl⟩ := hr
  exact lower_pure ⟨rfl, rfl⟩

theorem lower_light {cls : String} {p : Trace.Parser} {B : Nat} {c : Ctx} {rest : Bytes} (h : Lower (p c) B (Taken str rest)) :
    Lower (light cls p c) B (Taken str rest) := by
  unfold light
  refine h.bind₀ fun r hr => ?_
  obtain ⟨o, err⟩ := r
  obtain ⟨he, hs⟩ := hr
  simp only at he hs
  subst he
  have hst := hs.1
  simp only [fixStatus, Option.isSome_none, Bool.false_eq_true, false_and, if_false, hst, if_true]
  exact lower_pure ⟨rfl, rfl, hs.2⟩

/-! ### A slow grammar -/

theorem slowBy_lower (i : Info) {p : Sem} (hp : ∀ c rest, Facing str c (b! "c" ++ rest) → Lower (lift (p c)) 0 Missed) {tenv : TEnv}
    (ht : ∀ k, tenv 0 k = slowBy i p) (n : Nat) : ∀ N, 3 * n + 3 ≤ N → ∀ c rest, Facing str c (slowText n ++ rest) →
    Lower ((slowBy i p).run tenv N c) (2 ^ (n + 1) - 2) (Taken str rest) := by
  induction n with
  | zero =>
    intro N hN c rest hc
    match N, hN with
    | N + 3, _ =>
    refine lower_wrap _ (lower_base_hit (te := true) rfl ?_)
    simp only [List.map_cons, List.map_nil]
    have hc := facing_base hc ":base:First"
    have miss : ∀ (x : Sem), Lower (TGram.run tenv (N + 2)
        (.flatGroup none [.prim none none (seqS (b! "a")), .indirect (some i) 0, .prim none none x]) { c with cls := ":base:First", status := .matched }) 0 Missed := by
      intro x
      refine lower_wrap _ (lower_base_miss (te := false) rfl ?_)
      exact lower_child_miss (lower_wrap _ (lower_seq_miss (facing_base hc _) (by simp [slowText])))
    refine lower_alt_miss (B := 0) (B' := 0) (miss _) (lower_alt_miss (B := 0) (B' := 0) (miss _) ?_)
    have hit : Lower (TGram.run tenv (N + 2) (.prim none none (seqS (b! "d"))) { c with cls := ":base:First", status := .matched }) 0 (Taken str rest) :=
      lower_wrap none (lower_seq_hit (by simpa [slowText] using hc))
    refine (lower_alt_hit hit).mono (Nat.le_refl _) fun r h => ?_
    obtain ⟨o, h⟩ := h; exact ⟨0, o, h⟩
  | succ n ih =>
    intro N hN c rest hc
    match N, hN with
    | N + 3, hN =>
    have hpow : 1 ≤ 2 ^ n := Nat.one_le_two_pow
    have hsplit : slowText (n + 1) ++ rest = b! "a" ++ (slowText n ++ (b! "c" ++ rest)) := by
      rw [slowText, List.replicate_succ' (a := (0x63 : UInt8))]
      simp [slowText, List.replicate_succ]
    rw [hsplit] at hc
    refine lower_wrap _ (lower_base_hit (te := true) rfl ?_)
    simp only [List.map_cons, List.map_nil]
    have hc := facing_base hc ":base:First"
    have inner : ∀ c, Facing str c (slowText n ++ (b! "c" ++ rest)) →
        Lower (TGram.run tenv (N + 1) (.indirect (some i) 0) c) (2 ^ (n + 1) - 1) (Taken str (b! "c" ++ rest)) := by
      intro c hc
      refine (lower_counted i (lower_light (B := 2 ^ (n + 1) - 2) ?_)).mono (by omega) fun _ h => h
      intro s
      have h := ih N (by omega) c _ hc { s with clock := s.clock + 1 }
      rw [← ht s.clock] at h
      exact h
    have start : ∀ k c, Facing str c (b! "a" ++ (slowText n ++ (b! "c" ++ rest))) →
        Lower (TGram.run tenv (k + 1) (.prim none none (seqS (b! "a"))) c) 0 (Taken str (slowText n ++ (b! "c" ++ rest))) :=
      fun k c hc => lower_wrap none (lower_seq_hit hc)
    have miss : Lower (TGram.run tenv (N + 2)
        (.flatGroup none [.prim none none (seqS (b! "a")), .indirect (some i) 0, .prim none none p])
          { c with cls := ":base:First", status := .matched }) (0 + (2 ^ (n + 1) - 1 + 0)) Missed := by
      refine lower_wrap _ (lower_base_miss (te := false) rfl ?_)
      refine lower_child (start _ _ (facing_base hc _)) rfl fun o ho => lower_child (inner o ho) rfl fun o ho => ?_
      exact lower_child_miss (lower_wrap none (hp _ _ ho))
    have hit : Lower (TGram.run tenv (N + 2)
        (.flatGroup none [.prim none none (seqS (b! "a")), .indirect (some i) 0, .prim none none (seqS (b! "c"))])
          { c with cls := ":base:First", status := .matched }) (0 + (2 ^ (n + 1) - 1 + (0 + 0))) (Taken str rest) := by
      refine lower_wrap _ (lower_base_hit (te := false) rfl ?_)
      refine lower_child (start _ _ (facing_base hc _)) rfl fun o ho => lower_child (inner o ho) rfl fun o ho => ?_
      exact lower_child (lower_wrap none (lower_seq_hit ho)) rfl fun o ho => lower_pure ⟨2, o, rfl, ho⟩
    refine (lower_alt_miss miss (lower_alt_hit hit)).mono (by omega) fun r h => ?_
    obtain ⟨o, h⟩ := h; exact ⟨0, o, h⟩

theorem slow_lower (i : Info) (n N : Nat) (hN : 3 * n + 3 ≤ N) (c : Ctx) (rest : Bytes) (h : Facing str c (slowText n ++ rest)) :
    Lower ((slow i).run (fun _ _ => slow i) N c) (2 ^ (n + 1) - 2) (Taken str rest) :=
  slowBy_lower i (fun _ _ h => lower_seq_miss h (by simp)) (fun _ => rfl) n N hN c rest h

end Takenoco
