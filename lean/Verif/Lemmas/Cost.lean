import Verif.Spec.Cost
/-
Bounds for the number of parser calls.
-/
namespace Takenoco
open Spec Trace

/-- The computation makes at most `B` calls, and if it ends normally its result has `P`. -/
def Upper {α : Type} (x : M α) (B : Nat) (P : α → Prop) : Prop :=
  ∀ s, callCount (x s).2.events ≤ callCount s.events + B ∧ ∀ a, (x s).1 = .ok a → P a

section
variable {α β : Type} {B B' : Nat} {P : α → Prop} {Q : β → Prop}

theorem upper_lift {y : Out α} (h : ∀ a, y = .ok a → P a) : Upper (lift y) B P := fun _ => ⟨Nat.le_add_right _ _, h⟩

theorem upper_pure {a : α} (h : P a) : Upper (pure a) B P := fun _ => ⟨Nat.le_add_right _ _, fun b hb => by cases hb; exact h⟩

theorem Upper.mono {x : M α} {P' : α → Prop} (h : Upper x B P) (hB : B ≤ B') (hP : ∀ a, P a → P' a) : Upper x B' P' :=
  fun s => ⟨Nat.le_trans (h s).1 (by omega), fun a ha => hP a ((h s).2 a ha)⟩

theorem Upper.bind {x : M α} {f : α → M β} (hx : Upper x B P) (hf : ∀ a, P a → Upper (f a) B' Q) : Upper (x >>= f) (B + B') Q := by
  intro s
  obtain ⟨h1, h2⟩ := hx s
  show callCount (M.bind x f s).2.events ≤ _ ∧ ∀ a, (M.bind x f s).1 = .ok a → Q a
  rcases hxs : x s with ⟨o, s'⟩
  rw [hxs] at h1 h2
  cases o with
  | ok a =>
    obtain ⟨h3, h4⟩ := hf a (h2 a rfl) s'
    simp only [M.bind, hxs]
    simp only at h1
    exact ⟨by omega, h4⟩
  | panic r => simp only [M.bind, hxs]; exact ⟨by simp only at h1; omega, by simp⟩
  | timeout => simp only [M.bind, hxs]; exact ⟨by simp only at h1; omega, by simp⟩

end

theorem callCount_append (l m : List Event) : callCount (l ++ m) = callCount l + callCount m := List.countP_append

theorem upper_tracer {i : Info} {p : Trace.Parser} {c : Ctx} {B : Nat} {P : PRes → Prop} (h : Upper (p c) B P) : Upper (tracer i p c) (1 + B) P := by
  intro s
  obtain ⟨h1, h2⟩ := h { s with events := s.events ++ [.before i c] }
  unfold tracer
  rcases hp : p c { s with events := s.events ++ [.before i c] } with ⟨o, s'⟩
  rw [hp] at h1 h2
  simp only [callCount_append, show callCount [Event.before i c] = 1 from rfl] at h1
  cases o with
  | ok r =>
    refine ⟨?_, fun a ha => h2 a (by cases ha; rfl)⟩
    simp only [callCount_append, show callCount [Event.after i r.1 r.2] = 0 from rfl]; omega
  | panic r =>
    refine ⟨?_, by simp⟩
    simp only [callCount_append, show callCount [Event.panic i c r] = 0 from rfl]; omega
  | timeout => exact ⟨by simp only; omega, by simp⟩

theorem upper_wrap (i : Option Info) {p : Trace.Parser} {c : Ctx} {B : Nat} {P : PRes → Prop} (h : Upper (p c) B P) : Upper (wrap i p c) (1 + B) P := by
  cases i with
  | none => exact h.mono (by omega) fun _ h => h
  | some i => exact upper_tracer h

/-! ### Positions -/

/-- `o` is behind `c` in the same source, by at least one if `e`. -/
def Fwd (S : Sources) (e : Bool) (c o : Ctx) : Prop := c.pos + e.toNat ≤ o.pos ∧ o.pos ≤ S.size c ∧ o.str = c.str ∧ o.slice = c.slice

/-- A match moves the position. -/
def GoodRes (S : Sources) (e : Bool) (c : Ctx) (r : PRes) : Prop := (fixStatus r.1 r.2).status = .matched → Fwd S e c r.1

variable {S : Sources}

theorem Fwd.size {e : Bool} {c o : Ctx} (h : Fwd S e c o) : S.size o = S.size c := S.size_eq _ _ h.2.2.1 h.2.2.2

theorem Fwd.inside {e : Bool} {c o : Ctx} (h : Fwd S e c o) (hc : Inside S c) (ho : o.status = .matched) : Inside S o :=
  ⟨ho, S.fine_eq _ _ h.2.2.1.symm h.2.2.2.symm hc.2.1, by rw [h.size]; exact h.2.1⟩

theorem Fwd.trans {e e' : Bool} {a b c : Ctx} (h : Fwd S e a b) (h' : Fwd S e' b c) : Fwd S (e || e') a c := by
  obtain ⟨h1, h2, h3, h4⟩ := h'
  rw [h.size] at h2
  refine ⟨?_, h2, h3.trans h.2.2.1, h4.trans h.2.2.2⟩
  have := h.1
  cases e <;> cases e' <;> simp at * <;> omega

theorem Fwd.weaken {e : Bool} {a b : Ctx} (h : Fwd S true a b) : Fwd S e a b :=
  ⟨by have := h.1; cases e <;> simp at * <;> omega, h.2⟩

theorem Fwd.refl {c : Ctx} (hc : c.pos ≤ S.size c) : Fwd S false c c := ⟨by simp, hc, rfl, rfl⟩

/-- The bounds for a parser on sources of size `n`. -/
def FitsP (S : Sources) (n : Nat) (e : Bool) (B : Nat) (p : Trace.Parser) : Prop :=
  ∀ c, Inside S c → S.size c = n → Upper (p c) B (GoodRes S e c)

/-- The bounds for a sequence. -/
inductive FitsSeq (S : Sources) (n : Nat) : Bool → Nat → List Trace.Parser → Prop where
  | nil : FitsSeq S n false 0 []
  | cons {e e' : Bool} {B B' : Nat} {p : Trace.Parser} {ps : List Trace.Parser} : FitsP S n e B p → FitsSeq S n e' B' ps →
      FitsSeq S n (e || e') (B + B') (p :: ps)
  | forget {B : Nat} {ps : List Trace.Parser} : FitsSeq S n true B ps → FitsSeq S n false B ps

/-- The bounds for the alternatives of a choice. -/
inductive FitsAlts (S : Sources) (n : Nat) : Bool → Nat → List Trace.Parser → Prop where
  | nil : FitsAlts S n true 0 []
  | cons {e e' : Bool} {B B' : Nat} {p : Trace.Parser} {ps : List Trace.Parser} : FitsP S n e B p → FitsAlts S n e' B' ps →
      FitsAlts S n (e && e') (B + B') (p :: ps)
  | forget {B : Nat} {ps : List Trace.Parser} : FitsAlts S n true B ps → FitsAlts S n false B ps

/-! ### The engine -/

/-- How the children may end. -/
def ChildGood (S : Sources) (e : Bool) (c : Ctx) : ChildEnd → Prop
  | .fell _ o => o.status = .matched ∧ Fwd S e c o
  | .unmatched => True
  | .ret o _ => o.status = .error

theorem upper_children {n : Nat} {e : Bool} {B : Nat} {ps : List Trace.Parser} (h : FitsSeq S n e B ps) :
    ∀ k c, Inside S c → S.size c = n → Upper (Trace.childLoop false ps k c) B (ChildGood S e c) := by
  induction h with
  | nil => intro k c hc _; exact upper_pure ⟨hc.1, .refl hc.2.2⟩
  | forget _ ih =>
    intro k c hc hn
    refine (ih k c hc hn).mono (Nat.le_refl _) fun r hr => ?_
    cases r with
    | fell k o => exact ⟨hr.1, hr.2.weaken⟩
    | unmatched => trivial
    | ret o e => exact hr
  | @cons e e' B B' p ps hp _ ih =>
    intro k c hc hn
    rw [Trace.childLoop]
    refine (hp c hc hn).bind fun r hr => ?_
    obtain ⟨o, err⟩ := r
    simp only [GoodRes] at hr
    simp only
    split
    next hs => exact upper_pure hs
    next hs => exact upper_pure (P := ChildGood S (e || e') c) trivial
    next hs =>
      have ho := hr hs
      have hfix : fixStatus o err = o := by
        unfold fixStatus at hs ⊢; split <;> simp_all
      rw [hfix] at hs ⊢
      simp only [Bool.false_eq_true, if_false]
      refine (ih (k + 1) o (ho.inside hc hs) (by rw [ho.size, hn])).mono (Nat.le_refl _) fun r hr => ?_
      cases r with
      | fell k o' => exact ⟨hr.1, ho.trans hr.2⟩
      | unmatched => trivial
      | ret o e => exact hr

/-- How the alternatives may end. -/
def AltGood (S : Sources) (e : Bool) (c : Ctx) (k₀ : Nat) : ChildEnd → Prop
  | .fell k o => o.status = .matched ∧ (k = k₀ ∨ Fwd S e c o)
  | .unmatched => True
  | .ret o _ => o.status = .error

theorem upper_alts {n : Nat} {e : Bool} {B : Nat} {ps : List Trace.Parser} (h : FitsAlts S n e B ps) :
    ∀ k c, Inside S c → S.size c = n → Upper (Trace.childLoop true ps k c) B (AltGood S e c k) := by
  induction h with
  | nil => intro k c hc _; exact upper_pure ⟨hc.1, .inl rfl⟩
  | forget _ ih =>
    intro k c hc hn
    refine (ih k c hc hn).mono (Nat.le_refl _) fun r hr => ?_
    cases r with
    | fell k o => exact ⟨hr.1, hr.2.imp id (·.weaken)⟩
    | unmatched => trivial
    | ret o e => exact hr
  | @cons e e' B B' p ps hp _ ih =>
    intro k c hc hn
    rw [Trace.childLoop]
    refine (hp c hc hn).bind fun r hr => ?_
    obtain ⟨o, err⟩ := r
    simp only [GoodRes] at hr
    simp only
    split
    next hs => exact upper_pure hs
    next hs =>
      simp only [if_true]
      refine (ih k c hc hn).mono (Nat.le_refl _) fun r hr => ?_
      cases r with
      | fell k o =>
        refine ⟨hr.1, hr.2.imp id fun h => ?_⟩
        cases e' with
        | true => exact h.weaken
        | false => simpa using h
      | unmatched => trivial
      | ret o e => exact hr
    next hs =>
      have ho := hr hs
      have hfix : fixStatus o err = o := by
        unfold fixStatus at hs ⊢; split <;> simp_all
      rw [hfix] at hs ⊢
      simp only [if_true]
      refine upper_pure ⟨hs, .inr ?_⟩
      cases e with
      | true => exact ho.weaken
      | false => simpa using ho

/-- How one iteration may end. -/
def IterGood (S : Sources) (e : Bool) (c : Ctx) : IterEnd → Prop
  | .next o => o.status = .matched ∧ Fwd S e c o
  | .brk o => o = c
  | .ret o _ => o.status = .error

/-- The bounds for an iteration. -/
def FitsIter (S : Sources) (n : Nat) (e : Bool) (B : Nat) (body : Nat → Ctx → M IterEnd) : Prop :=
  ∀ count c, Inside S c → S.size c = n → Upper (body count c) B (IterGood S e c)

theorem fits_iteration {n : Nat} {e : Bool} {B : Nat} {ps : List Trace.Parser} (h : FitsSeq S n e B ps) (bottom : Nat) :
    FitsIter S n e B (Trace.iteration none false ps bottom) := by
  intro count c hc hn
  unfold Trace.iteration
  refine Upper.bind (B' := 0) (upper_children h 0 c hc hn) fun r hr => ?_
  cases r with
  | ret o e => exact upper_pure hr
  | unmatched => exact upper_pure (P := IterGood S e c) rfl
  | fell k o =>
    simp only [Bool.false_eq_true, false_and, if_false]
    refine Upper.bind (B := 0) (B' := 0) (P := fun r => r = ({ o with qty := count }, none)) (upper_lift fun a ha => by cases ha; rfl) ?_
    rintro _ rfl
    simp only [hr.1]
    exact upper_pure ⟨rfl, hr.2⟩

theorem fits_choice {n : Nat} {e : Bool} {B : Nat} {ps : List Trace.Parser} (h : FitsAlts S n e B ps) (hne : ps ≠ []) (bottom : Nat) :
    FitsIter S n e B (Trace.iteration none true ps bottom) := by
  intro count c hc hn
  unfold Trace.iteration
  refine Upper.bind (B' := 0) (upper_alts h 0 c hc hn) fun r hr => ?_
  cases r with
  | ret o e => exact upper_pure hr
  | unmatched => exact upper_pure (P := IterGood S e c) rfl
  | fell k o =>
    by_cases hk : k = 0
    · have : 0 < ps.length := List.length_pos_iff.2 hne
      simp only [hk, this, and_self, if_true]
      exact upper_pure (P := IterGood S e c) rfl
    · simp only [hk, and_false, if_false]
      refine Upper.bind (B := 0) (B' := 0) (P := fun r => r = ({ o with qty := count }, none)) (upper_lift fun a ha => by cases ha; rfl) ?_
      rintro _ rfl
      simp only [hr.1]
      exact upper_pure ⟨rfl, hr.2.resolve_left hk⟩

/-- How the loop may end. -/
def LoopGood (S : Sources) (e : Bool) (count : Nat) (c : Ctx) : LoopEnd → Prop
  | .done m o => o.status = .matched ∧ count ≤ m ∧ Fwd S false c o ∧ (e = true → count < m → Fwd S true c o)
  | .ret o _ => o.status = .error

theorem LoopGood.next {e : Bool} {count : Nat} {c d : Ctx} (h : Fwd S e c d) {r : LoopEnd} (hr : LoopGood S e (count + 1) d r) :
    LoopGood S e count c r := by
  cases r with
  | ret o e => exact hr
  | done m o =>
    obtain ⟨h1, h2, h3, h4⟩ := hr
    refine ⟨h1, by omega, ?_, fun he _ => ?_⟩
    · have := h.trans h3
      cases e with
      | true => exact this.weaken
      | false => exact this
    · subst he; exact h.trans h3

theorem upper_times {n : Nat} {e : Bool} {B : Nat} {body : Nat → Ctx → M IterEnd} (h : FitsIter S n e B body) (u : Bool) :
    ∀ k count c, Inside S c → S.size c = n → Upper (Trace.parentLoop u body k count c) (k * B) (LoopGood S e count c) := by
  intro k
  induction k with
  | zero =>
    intro count c hc _
    unfold Trace.parentLoop
    split
    · exact upper_lift (by simp)
    · exact upper_pure ⟨hc.1, Nat.le_refl _, .refl hc.2.2, fun _ h => by omega⟩
  | succ k ih =>
    intro count c hc hn
    unfold Trace.parentLoop
    rw [show (k + 1) * B = B + k * B by rw [Nat.succ_mul, Nat.add_comm]]
    refine (h count c hc hn).bind fun r hr => ?_
    cases r with
    | ret o e => exact upper_pure hr
    | brk o =>
      cases (show o = c from hr)
      exact upper_pure ⟨hc.1, Nat.le_refl _, .refl hc.2.2, fun _ h => by omega⟩
    | next o =>
      exact (ih (count + 1) o (hr.2.inside hc hr.1) (by rw [hr.2.size, hn])).mono (Nat.le_refl _) fun r h => LoopGood.next hr.2 h

theorem upper_loop {n : Nat} {B : Nat} {body : Nat → Ctx → M IterEnd} (h : FitsIter S n true B body) (u : Bool) :
    ∀ k count c, Inside S c → S.size c = n → Upper (Trace.parentLoop u body k count c) ((n - c.pos + 1) * B) (LoopGood S true count c) := by
  intro k
  induction k with
  | zero =>
    intro count c hc _
    unfold Trace.parentLoop
    split
    · exact upper_lift (by simp)
    · exact upper_pure ⟨hc.1, Nat.le_refl _, .refl hc.2.2, fun _ h => by omega⟩
  | succ k ih =>
    intro count c hc hn
    unfold Trace.parentLoop
    refine Upper.mono (B := B + (n - c.pos) * B) ?_ (by rw [Nat.succ_mul]; omega) (fun _ h => h)
    refine (h count c hc hn).bind fun r hr => ?_
    cases r with
    | ret o e => exact upper_pure hr
    | brk o =>
      cases (show o = c from hr)
      exact upper_pure ⟨hc.1, Nat.le_refl _, .refl hc.2.2, fun _ h => by omega⟩
    | next o =>
      refine (ih (count + 1) o (hr.2.inside hc hr.1) (by rw [hr.2.size, hn])).mono (Nat.mul_le_mul_right _ ?_) fun r h => LoopGood.next hr.2 h
      have h1 := hr.2.1
      have h2 := hr.2.2.1
      simp at h1
      omega

/-- Transformers that call no parser. -/
def Silent (ts : List Trace.Transformer) : Prop := ∀ t ∈ ts, ∀ c l, Upper (t c l) 0 fun _ => True

theorem upper_applyTrs {ts : List Trace.Transformer} (h : Silent ts) (c : Ctx) : ∀ l, Upper (Trace.applyTrs c ts l) 0 fun _ => True := by
  induction ts with
  | nil => intro l; exact upper_pure trivial
  | cons t ts ih =>
    intro l
    unfold Trace.applyTrs
    refine Upper.bind (B' := 0) (h t (by simp) c l) fun r _ => ?_
    obtain ⟨l', e⟩ := r
    cases e with
    | none => exact ih (fun t ht => h t (by simp [ht])) l'
    | some e => exact upper_pure trivial

theorem upper_applyTransforms {tr : Option (List Trace.Transformer)} (htr : ∀ ts, tr = some ts → Silent ts) {ctx out c : Ctx} {e : Bool}
    (h : Fwd S e c out) : Upper (Trace.applyTransforms tr ctx out) 0 (GoodRes S e c) := by
  cases tr with
  | none => exact upper_pure fun _ => h
  | some ts =>
    simp only [Trace.applyTransforms]
    split
    · exact upper_lift (by simp)
    · refine Upper.bind (B := 0) (B' := 0) (upper_applyTrs (htr ts rfl) ctx _) fun r _ => ?_
      obtain ⟨l, e⟩ := r
      cases e with
      | none => exact upper_pure fun _ => h
      | some e => exact upper_pure fun hs => by simp [fixStatus] at hs

theorem upper_afterLoop {f : Flags} {tr : Option (List Trace.Transformer)} (htr : ∀ ts, tr = some ts → Silent ts) {ctx out c : Ctx} {count : Nat}
    {e : Bool} (hm : out.status = .matched) (hr : f.rewind = true → Fwd S e c ctx) (h : f.rewind = false → f.negative = false ∧ (f.qty.min ≤ count → Fwd S e c out)) :
    Upper (Trace.afterLoop f none tr ctx count out) 0 (GoodRes S e c) := by
  unfold Trace.afterLoop
  simp only
  split
  next hs => exact upper_pure fun h => absurd (by simpa [fixStatus] using h) hs
  next hs =>
    refine Upper.bind (B := 0) (B' := 0) (P := fun r => r = ({ negateStatus f.negative (checkMin f.qty.min count out) with qty := count }, none))
      (upper_lift fun a ha => by cases ha; rfl) ?_
    rintro _ rfl
    simp only
    split
    next hs' => exact upper_pure fun h => absurd (by simpa [fixStatus] using h) hs'
    next hs' =>
      split
      next hrw => exact upper_applyTransforms htr (hr hrw)
      next hrw =>
        obtain ⟨hn, hf⟩ := h (by simpa using hrw)
        refine upper_applyTransforms htr ?_
        by_cases hmin : f.qty.min ≤ count
        · have := hf hmin
          have hck : checkMin f.qty.min count out = out := by
            unfold checkMin; split <;> first | omega | rfl
          simp only [hn, negateStatus, hck, Bool.false_eq_true, if_false]
          exact this
        · have h0 : 0 ≤ f.qty.min ∧ (count : Int) < f.qty.min := by omega
          rw [hn] at hs
          simp [negateStatus, checkMin, h0] at hs

/-- The bounds for `BaseParser` without a callback. -/
theorem fits_base {n : Nat} {e e' : Bool} {B L fuel : Nat} {cls : String} {props : List PropItem} {ps : List Trace.Parser}
    {tr : Option (List Trace.Transformer)} (htr : ∀ ts, tr = some ts → Silent ts)
    (hit : ∀ bottom, FitsIter S n e B (Trace.iteration none (readProps props).thereExists ps bottom))
    (hL : ∀ c, Inside S c → S.size c = n → ∀ u body, FitsIter S n e B body → (decide ((readProps props).qty.max < 0) = u) →
      Upper (Trace.parentLoop u body (if u then fuel else (readProps props).qty.max.toNat) 0 c) L (LoopGood S e 0 c))
    (hr : (readProps props).rewind = true → e' = false)
    (hn : (readProps props).rewind = false → (readProps props).negative = false ∧ (e' = true → e = true ∧ 1 ≤ (readProps props).qty.min)) :
    FitsP S n e' L (Trace.base fuel cls none props ps tr) := by
  intro c hc hsz
  unfold Trace.base
  refine Upper.bind (B' := 0) (hL { c with cls := cls, status := .matched } ⟨rfl, S.fine_eq c _ rfl rfl hc.2.1, by
    rw [S.size_eq { c with cls := cls, status := .matched } c rfl rfl]; exact hc.2.2⟩ (by rw [← hsz]; exact S.size_eq _ _ rfl rfl) _ _ (hit _) rfl) fun r hr' => ?_
  cases r with
  | ret o err =>
    have : o.status = .error := hr'
    exact upper_pure fun h => by simp [fixStatus, this] at h
  | done m o =>
    obtain ⟨h1, -, h2, h3⟩ := hr'
    have hback : ∀ e o, Fwd S e { c with cls := cls, status := .matched } o → Fwd S e c o := fun e o h =>
      ⟨h.1, by rw [← S.size_eq { c with cls := cls, status := .matched } c rfl rfl]; exact h.2.1, h.2.2⟩
    refine upper_afterLoop htr h1 (fun h => ?_) fun h => ⟨(hn h).1, fun hm => ?_⟩
    · rw [hr h]
      exact ⟨by simp, hc.2.2, rfl, rfl⟩
    · cases e' with
      | false => exact hback _ _ h2
      | true =>
        obtain ⟨he, hm'⟩ := (hn h).2 rfl
        exact hback _ _ (h3 he (by omega))

theorem fits_once {n : Nat} {e e' : Bool} {B fuel : Nat} {cls : String} {props : List PropItem} {ps : List Trace.Parser}
    {tr : Option (List Trace.Transformer)} (htr : ∀ ts, tr = some ts → Silent ts) (hq : (readProps props).qty = qtyOnce)
    (hit : ∀ bottom, FitsIter S n e B (Trace.iteration none (readProps props).thereExists ps bottom))
    (hr : (readProps props).rewind = true → e' = false)
    (hn : (readProps props).rewind = false → (readProps props).negative = false ∧ (e' = true → e = true)) :
    FitsP S n e' B (Trace.base fuel cls none props ps tr) := by
  refine fits_base htr hit (fun c hc hsz u body hb hu => ?_) hr fun h => ⟨(hn h).1, fun h' => ⟨(hn h).2 h', by simp [hq, qtyOnce]⟩⟩
  have hu' : u = false := by rw [← hu, hq]; rfl
  subst hu'
  rw [hq]
  exact (upper_times hb false 1 0 c hc hsz).mono (by omega) fun _ h => h

theorem fits_wrap (i : Option Info) {n : Nat} {e : Bool} {B : Nat} {p : Trace.Parser} (h : FitsP S n e B p) : FitsP S n e (1 + B) (wrap i p) :=
  fun c hc hn => upper_wrap i (h c hc hn)

theorem fits_light {n : Nat} {e : Bool} {B : Nat} {cls : String} {p : Trace.Parser} (h : FitsP S n e B p) : FitsP S n e B (light cls p) := by
  intro c hc hn
  unfold light
  refine Upper.bind (B' := 0) (h c hc hn) fun r hr => ?_
  obtain ⟨o, err⟩ := r
  refine upper_pure fun hs => ?_
  have hs' : (fixStatus o err).status = .matched := by
    revert hs
    simp only
    cases err with
    | none => cases ho : o.status <;> simp [fixStatus, ho]
    | some err => cases ho : o.status <;> simp [fixStatus, ho]
  have hfix : fixStatus o err = o := by unfold fixStatus at hs' ⊢; split <;> simp_all
  have := hr hs'
  simp only [hfix] at hs' ⊢
  simp only [hs', if_true]
  exact this

theorem fits_lookBehind {n : Nat} {e : Bool} {B : Nat} {p : Trace.Parser} (h : FitsP S n e B p) (neg : Bool) (c : Ctx) (hc : Inside S c)
    (hn : S.size c = n) : ∀ (k : Nat) (i : Int), 0 ≤ i → Upper (Trace.lookBehindLoop neg p c k i) (k * B) (GoodRes S false c) := by
  intro k
  induction k with
  | zero => intro i _; exact upper_pure fun _ => ⟨by simp, hc.2.2, rfl, rfl⟩
  | succ k ih =>
    intro i hi
    rw [Trace.lookBehindLoop, show (k + 1) * B = B + k * B by rw [Nat.succ_mul, Nat.add_comm]]
    split
    · exact (ih (i + 1) (by omega)).mono (by omega) fun _ h => h
    · have h' := h { c with pos := ((c.pos : Int) - i).toNat } ⟨hc.1, S.fine_eq c _ rfl rfl hc.2.1, ?_⟩ (by rw [← hn]; exact S.size_eq _ _ rfl rfl)
      refine h'.bind fun r _ => ?_
      rotate_left
      · rw [S.size_eq { c with pos := ((c.pos : Int) - i).toNat } c rfl rfl]
        have := hc.2.2
        simp only
        omega
      · obtain ⟨o, err⟩ := r
        cases err with
        | some err =>
          refine upper_pure fun h => ?_
          exfalso; revert h; cases ho : o.status <;> simp [fixStatus, ho]
        | none =>
          simp only
          split
          · split
            · exact upper_pure fun h => by simp [fixStatus] at h
            · exact upper_pure fun _ => ⟨by simp, hc.2.2, rfl, rfl⟩
          · exact ih (i + 1) (by omega)

theorem fits_match {n : Nat} {k : Int} {cases : List ((List Ast → Bool) × List Trace.Transformer)} (h : ∀ x ∈ cases, Silent x.2) :
    FitsP S n false 0 (Trace.matchFn k cases) := by
  intro c hc hn
  induction cases with
  | nil => exact upper_pure fun h => by simp [fixStatus] at h
  | cons x cases ih =>
    obtain ⟨g, ts⟩ := x
    unfold Trace.matchFn
    split
    · simp only
      split
      · exact upper_lift (by simp)
      · refine Upper.bind (B := 0) (B' := 0) (upper_applyTrs (h (g, ts) (by simp)) _ _) fun r _ => ?_
        obtain ⟨l, err⟩ := r
        cases err with
        | none => exact upper_pure fun _ => ⟨by simp, hc.2.2, rfl, rfl⟩
        | some err => exact upper_pure fun h => by simp [fixStatus] at h
    · exact ih fun x hx => h x (by simp [hx])

theorem fits_forget {n : Nat} {B : Nat} {p : Trace.Parser} (h : FitsP S n true B p) : FitsP S n false B p :=
  fun c hc hn => (h c hc hn).mono (Nat.le_refl _) fun _ h hs => (h hs).weaken

theorem silent_fn {tenv : TEnv} {n : Nat} (ts : List TSem) : Silent ((ts.map TTr.fn).map (TTr.run tenv n)) := by
  intro t ht c l
  obtain ⟨u, hu, rfl⟩ := List.mem_map.1 ht
  obtain ⟨f, -, rfl⟩ := List.mem_map.1 hu
  cases n with
  | zero => exact upper_lift (by simp)
  | succ n => exact upper_lift (by simp)

/-- What is shown of a form. -/
def Bounded (tenv : TEnv) (S : Sources) (m : Nat) (e : Bool) (B : Nat) : TForm → Prop
  | .gram g => ∀ n, FitsP S m e B (TGram.run tenv n g)
  | .seq gs => ∀ n, FitsSeq S m e B (gs.map (TGram.run tenv n))
  | .alts gs => ∀ n, FitsAlts S m e B (gs.map (TGram.run tenv n))

/-- The bounds of `Work` hold. -/
theorem work_bounded {tenv : TEnv} {e : Bool} {w : Nat → Nat} {f : TForm} (h : Work tenv S e w f) (m : Nat) : Bounded tenv S m e (w m) f := by
  have hzero : ∀ (e : Bool) (B : Nat) (g : TGram), FitsP S m e B (TGram.run tenv 0 g) := fun e B g c _ _ => upper_lift (by simp)
  induction h with
  | @prim e i cls p hp =>
    intro n
    cases n with
    | zero => exact hzero _ _ _
    | succ n =>
      refine fits_wrap (B := 0) i fun c hc _ => upper_lift fun r hr hs => ?_
      obtain ⟨o, err⟩ := r
      cases err with
      | none => exact hp c o hc hr (by simpa [fixStatus] using hs)
      | some err => exfalso; revert hs; cases ho : o.status <;> simp [fixStatus, ho]
  | @forget w f _ ih =>
    cases f with
    | gram g => exact fun n => fits_forget (ih n)
    | seq gs => exact fun n => .forget (ih n)
    | alts gs => exact fun n => .forget (ih n)
  | nil => exact fun n => .nil
  | cons _ _ ih ih' => exact fun n => .cons (ih n) (ih' n)
  | none => exact fun n => .nil
  | alt _ _ ih ih' => exact fun n => .cons (ih n) (ih' n)
  | flatGroup _ ih =>
    intro n
    cases n with
    | zero => exact hzero _ _ _
    | succ n => exact fits_wrap _ (fits_once (by simp) rfl (fits_iteration (ih n)) (by intro h; cases h) fun _ => ⟨rfl, id⟩)
  | group _ ih =>
    intro n
    cases n with
    | zero => exact hzero _ _ _
    | succ n =>
      refine fits_wrap _ (fits_once ?_ rfl (fits_iteration (ih n)) (by intro h; cases h) fun _ => ⟨rfl, id⟩)
      rintro _ ⟨⟩ t ht c l
      cases List.mem_singleton.1 ht
      exact upper_lift (by simp)
  | first hne _ ih =>
    intro n
    cases n with
    | zero => exact hzero _ _ _
    | succ n => exact fits_wrap _ (fits_once (by simp) rfl (fits_choice (ih n) (by simpa using hne)) (by intro h; cases h) fun _ => ⟨rfl, id⟩)
  | lookAhead _ ih =>
    intro n
    cases n with
    | zero => exact hzero _ _ _
    | succ n => exact fits_wrap _ (fits_once (by simp) rfl (fits_iteration (ih n)) (fun _ => rfl) (by intro h; cases h))
  | lookAheadN _ ih =>
    intro n
    cases n with
    | zero => exact hzero _ _ _
    | succ n => exact fits_wrap _ (fits_once (by simp) rfl (fits_iteration (ih n)) (fun _ => rfl) (by intro h; cases h))
  | lookBehind ha _ ih =>
    intro n
    cases n with
    | zero => exact hzero _ _ _
    | succ n =>
      exact fun c hc hn => fits_lookBehind (fits_wrap _ (fits_once (e' := false) (by simp) rfl (fits_iteration (ih n)) (fun _ => rfl) (by intro h; cases h))) _ c hc hn _ _ ha
  | lookBehindN ha _ ih =>
    intro n
    cases n with
    | zero => exact hzero _ _ _
    | succ n =>
      exact fun c hc hn => fits_lookBehind (fits_wrap _ (fits_once (e' := false) (by simp) rfl (fits_iteration (ih n)) (fun _ => rfl) (by intro h; cases h))) _ c hc hn _ _ ha
  | @times e e' w i t gs ht _ he ih =>
    intro n
    cases n with
    | zero => exact hzero _ _ _
    | succ n =>
      refine fits_wrap _ (fits_base (by simp) (fits_iteration (ih n)) (fun c hc hsz u body hb hu => ?_) (by intro h; cases h) fun _ => ⟨rfl, he⟩)
      have : u = false := by rw [← hu]; exact decide_eq_false (by show ¬ t.max < 0; omega)
      subst this
      exact upper_times hb false _ 0 c hc hsz
  | @loop e' w i t gs ht _ he ih =>
    intro n
    cases n with
    | zero => exact hzero _ _ _
    | succ n =>
      refine fits_wrap _ (fits_base (by simp) (fits_iteration (ih n)) (fun c hc hsz u body hb hu => ?_) (by intro h; cases h) fun _ => ⟨rfl, fun h => ⟨rfl, he h⟩⟩)
      exact (upper_loop hb u _ 0 c hc hsz).mono (Nat.mul_le_mul_right _ (by omega)) fun _ h => h
  | @trans e w i g ts _ ih =>
    intro n
    cases n with
    | zero => exact hzero _ _ _
    | succ n =>
      refine fits_wrap _ (fits_once ?_ rfl (fits_iteration (B := w m) (e := e) ?_) (by intro h; cases h) fun _ => ⟨rfl, id⟩)
      · intro us hu
        split at hu
        · cases hu
        · cases hu; exact silent_fn ts
      · have := FitsSeq.cons (ih n) .nil
        simpa using this
  | @«match» i k cases =>
    intro n
    cases n with
    | zero => exact hzero _ _ _
    | succ n =>
      refine fits_wrap (B := 0) _ (fits_light (fits_match ?_))
      intro x hx
      simp only [List.map_map, List.mem_map] at hx
      obtain ⟨y, -, rfl⟩ := hx
      exact silent_fn y.2
  | @indirect e w i name _ ih =>
    intro n
    cases n with
    | zero => exact hzero _ _ _
    | succ n =>
      refine fits_wrap _ (fits_light ?_)
      intro c hc hn s
      exact ih s.clock n c hc hn { s with clock := s.clock + 1 }
  | debug _ ih =>
    intro n
    cases n with
    | zero => exact hzero _ _ _
    | succ n => exact fits_wrap _ (fits_once (by simp) rfl (fits_iteration (ih n)) (by intro h; cases h) fun _ => ⟨rfl, id⟩)

end Takenoco
