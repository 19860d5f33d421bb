import Verif.Lemmas.Cost
import Verif.Lemmas.Tracer
/-
A cost semantics for grammars over strings: which results a grammar may have at a position, and after how many parser calls at most.
-/
namespace Takenoco
open Spec Trace

/-- How a parser ends: a match up to a position, no match, or an end of the whole parse (error or panic). -/
inductive End where
  | hit (y : Nat)
  | miss
  | abort
  deriving DecidableEq

/-- The end belongs to the outcome of the parser, on the source `str`. -/
def EndOf (str : Bytes) (x : Out PRes) : End → Prop
  | .hit y => ∃ o, x = .ok (o, none) ∧ o.status = .matched ∧ o.str = str ∧ o.pos = y
  | .miss => ∃ o, x = .ok (o, none) ∧ o.status = .unmatched
  | .abort => ∀ o e, x = .ok (o, e) → (fixStatus o e).status = .error

/-- The terminal ends like this at position `x`, whatever else is in the context. -/
def TermEnds (str : Bytes) (p : Sem) (x : Nat) (r : End) : Prop :=
  (∀ c : Ctx, c.str = str → c.pos = x → c.status = .matched → EndOf str (p c) r) ∧ ∀ y, r = .hit y → x ≤ y ∧ y ≤ str.length

/-- A grammar, a sequence, the alternatives of a choice, or the iterations of an unbounded repetition (with their number). -/
inductive CForm where
  | gram (g : Gram)
  | seq (gs : List Gram)
  | alts (gs : List Gram)
  | loop (m : Nat) (gs : List Gram)

/-- `Cost str f x r k`: started at position `x`, the form `f` may end with `r` after at most `k` calls. -/
inductive Cost (str : Bytes) : CForm → Nat → End → Nat → Prop where
  | timeout {g : Gram} {x : Nat} : Cost str (.gram g) x .abort 0
  | forever {gs : List Gram} {x : Nat} : Cost str (.loop 0 gs) x .abort 0
  | prim {p : Sem} {x : Nat} {r : End} : TermEnds str p x r → Cost str (.gram (.prim p)) x r 1
  | nil {x : Nat} : Cost str (.seq []) x (.hit x) 0
  | cons {g : Gram} {gs : List Gram} {x y : Nat} {r : End} {k k' : Nat} : Cost str (.gram g) x (.hit y) k → Cost str (.seq gs) y r k' →
      Cost str (.seq (g :: gs)) x r (k + k')
  | stop {g : Gram} {gs : List Gram} {x : Nat} {r : End} {k : Nat} : Cost str (.gram g) x r k → (∀ y, r ≠ .hit y) → Cost str (.seq (g :: gs)) x r k
  | none {x : Nat} : Cost str (.alts []) x .miss 0
  | take {g : Gram} {gs : List Gram} {x : Nat} {r : End} {k : Nat} : Cost str (.gram g) x r k → r ≠ .miss → Cost str (.alts (g :: gs)) x r k
  | skip {g : Gram} {gs : List Gram} {x : Nat} {r : End} {k k' : Nat} : Cost str (.gram g) x .miss k → Cost str (.alts gs) x r k' →
      Cost str (.alts (g :: gs)) x r (k + k')
  | flatGroup {gs : List Gram} {x : Nat} {r : End} {k : Nat} : Cost str (.seq gs) x r k → Cost str (.gram (.flatGroup gs)) x r (1 + k)
  | first {gs : List Gram} {x : Nat} {r : End} {k : Nat} : gs ≠ [] → Cost str (.alts gs) x r k → Cost str (.gram (.first gs)) x r (1 + k)
  | last {gs : List Gram} {x : Nat} {k : Nat} : Cost str (.seq gs) x .miss k → Cost str (.loop 0 gs) x (.hit x) k
  | ends {gs : List Gram} {x : Nat} {k : Nat} : Cost str (.seq gs) x .abort k → Cost str (.loop 0 gs) x .abort k
  | next {gs : List Gram} {x y : Nat} {m : Nat} {r : End} {k k' : Nat} : Cost str (.seq gs) x (.hit y) k → Cost str (.loop m gs) y r k' →
      Cost str (.loop (m + 1) gs) x r (k + k')
  | done {gs : List Gram} {x : Nat} {t : Times} {m : Nat} {r : End} {k : Nat} : t.max < 0 → Cost str (.loop m gs) x r k → (r = .abort ∨ t.min ≤ m) →
      Cost str (.gram (.repeat t gs)) x r (1 + k)
  | few {gs : List Gram} {x y : Nat} {t : Times} {m : Nat} {k : Nat} : t.max < 0 → Cost str (.loop m gs) x (.hit y) k → (m : Int) < t.min →
      Cost str (.gram (.repeat t gs)) x .miss (1 + k)
  | trans {g : Gram} {ts : List TSem} {x : Nat} {r : End} {k : Nat} : Cost str (.gram g) x r k → Cost str (.gram (.trans g (ts.map .fn))) x r (1 + k)
  | transFails {g : Gram} {ts : List TSem} {x : Nat} {y k : Nat} : Cost str (.gram g) x (.hit y) k →
      Cost str (.gram (.trans g (ts.map .fn))) x .abort (1 + k)

/-- Grammars to which the semantics applies: sequences, choices, unbounded repetitions and transformations of terminals. -/
inductive Costed (str : Bytes) : Gram → Prop where
  | prim {p : Sem} : (∀ x, x ≤ str.length → ∃ r, TermEnds str p x r) → Costed str (.prim p)
  | flatGroup {gs : List Gram} : (∀ g, g ∈ gs → Costed str g) → Costed str (.flatGroup gs)
  | first {gs : List Gram} : gs ≠ [] → (∀ g, g ∈ gs → Costed str g) → Costed str (.first gs)
  | repeat {t : Times} {gs : List Gram} : t.max < 0 → (∀ g, g ∈ gs → Costed str g) → Costed str (.repeat t gs)
  | trans {g : Gram} {ts : List TSem} : Costed str g → Costed str (.trans g (ts.map .fn))

/-! ### Computations with costs -/

/-- After at most `k` calls the computation has an outcome such that `R` holds of it and `k`. -/
def Bill {α : Type} (x : M α) (R : Out α → Nat → Prop) : Prop :=
  ∀ s, ∃ k, callCount (x s).2.events ≤ callCount s.events + k ∧ R (x s).1 k

theorem bill_lift {α : Type} {y : Out α} {R : Out α → Nat → Prop} (h : R y 0) : Bill (lift y) R := fun _ => ⟨0, Nat.le_refl _, h⟩

theorem bill_pure {α : Type} {a : α} {R : Out α → Nat → Prop} (h : R (.ok a) 0) : Bill (pure a) R := bill_lift h

theorem Bill.mono {α : Type} {x : M α} {R R' : Out α → Nat → Prop} (h : Bill x R) (hR : ∀ o k, R o k → R' o k) : Bill x R' := fun s =>
  let ⟨k, h1, h2⟩ := h s; ⟨k, h1, hR _ _ h2⟩

theorem Bill.bind {α β : Type} {x : M α} {f : α → M β} {R : Out α → Nat → Prop} {R' : Out β → Nat → Prop} (hx : Bill x R)
    (h : ∀ a k, R (.ok a) k → Bill (f a) fun o j => R' o (k + j)) (hp : ∀ p k, R (.panic p) k → R' (.panic p) k)
    (ht : ∀ k, R .timeout k → R' .timeout k) : Bill (x >>= f) R' := by
  intro s
  obtain ⟨k, h1, h2⟩ := hx s
  show ∃ k, callCount (M.bind x f s).2.events ≤ callCount s.events + k ∧ R' (M.bind x f s).1 k
  rcases hxs : x s with ⟨o, s'⟩
  rw [hxs] at h1 h2
  simp only at h1 h2
  cases o with
  | ok a =>
    obtain ⟨j, h3, h4⟩ := h a k h2 s'
    simp only [M.bind, hxs]
    exact ⟨k + j, by omega, h4⟩
  | panic r => simp only [M.bind, hxs]; exact ⟨k, h1, hp r k h2⟩
  | timeout => simp only [M.bind, hxs]; exact ⟨k, h1, ht k h2⟩

theorem bill_wrap (i : Option Info) {p : Trace.Parser} {c : Ctx} {R : Out PRes → Nat → Prop} (h : Bill (p c) fun o k => R o (1 + k)) : Bill (wrap i p c) R := by
  cases i with
  | none =>
    intro s
    obtain ⟨k, h1, h2⟩ := h s
    exact ⟨1 + k, by simp only [wrap]; omega, h2⟩
  | some i =>
    intro s
    obtain ⟨k, h1, h2⟩ := h { s with events := s.events ++ [.before i c] }
    refine ⟨1 + k, ?_⟩
    show callCount (tracer i p c s).2.events ≤ _ ∧ R (tracer i p c s).1 _
    unfold tracer
    rcases hp : p c { s with events := s.events ++ [.before i c] } with ⟨o, s'⟩
    rw [hp] at h1 h2
    simp only [callCount_append, show callCount [Event.before i c] = 1 from rfl] at h1
    cases o with
    | ok r =>
      obtain ⟨o, e⟩ := r
      refine ⟨?_, h2⟩
      simp only [callCount_append, show callCount [Event.after i o e] = 0 from rfl]; omega
    | panic r =>
      refine ⟨?_, h2⟩
      simp only [callCount_append, show callCount [Event.panic i c r] = 0 from rfl]; omega
    | timeout => exact ⟨by simp only; omega, h2⟩

/-! ### The engine -/

variable {str : Bytes}

/-- The context is in the source. -/
def On (str : Bytes) (c : Ctx) : Prop := c.str = str ∧ c.status = .matched ∧ c.pos ≤ str.length

/-- The parser follows the semantics of the form. -/
def Pays (str : Bytes) (f : CForm) (p : Trace.Parser) : Prop :=
  ∀ c, On str c → Bill (p c) fun o k => ∃ r, EndOf str o r ∧ Cost str f c.pos r k

theorem fixed_matched {o : Ctx} {e : Option Err} (h : (fixStatus o e).status = .matched) : e = none ∧ o.status = .matched := by
  cases e with
  | none => exact ⟨rfl, by simpa [fixStatus] using h⟩
  | some e => exfalso; revert h; cases ho : o.status <;> simp [fixStatus, ho]

theorem fixed_unmatched {o : Ctx} {e : Option Err} (h : (fixStatus o e).status = .unmatched) : e = none ∧ o.status = .unmatched := by
  cases e with
  | none => exact ⟨rfl, by simpa [fixStatus] using h⟩
  | some e => exfalso; revert h; cases ho : o.status <;> simp [fixStatus, ho]

theorem fixStatus_none (o : Ctx) : fixStatus o none = o := by simp [fixStatus]

/-- The end belongs to the way the children end. -/
def ChildEndOf (str : Bytes) (te : Bool) (x : Out ChildEnd) : End → Prop
  | .hit y => ∃ m o, x = .ok (.fell m o) ∧ (te = true → m ≠ 0) ∧ o.status = .matched ∧ o.str = str ∧ o.pos = y
  | .miss => if te then ∃ o, x = .ok (.fell 0 o) else x = .ok .unmatched
  | .abort => ∀ e, x = .ok e → ∃ o err, e = .ret o err ∧ o.status = .error

theorem cost_hit_le {f : CForm} {x : Nat} {r : End} {k : Nat} (h : Cost str f x r k) : ∀ y, x ≤ str.length → r = .hit y → x ≤ y ∧ y ≤ str.length := by
  induction h with
  | timeout => intro y _ h; cases h
  | forever => intro y _ h; cases h
  | prim h => intro y _ hy; exact h.2 y hy
  | nil => intro y hx hy; cases hy; exact ⟨Nat.le_refl _, hx⟩
  | cons _ _ ih ih' =>
    intro y hx hy
    have h1 := ih _ hx rfl
    have h2 := ih' _ h1.2 hy
    exact ⟨by omega, h2.2⟩
  | stop _ h _ => intro y _ hy; exact absurd hy (h y)
  | none => intro y _ h; cases h
  | take _ _ ih => exact ih
  | skip _ _ _ ih => exact ih
  | flatGroup _ ih => exact ih
  | first _ _ ih => exact ih
  | last _ _ => intro y hx hy; cases hy; exact ⟨Nat.le_refl _, hx⟩
  | ends _ _ => intro y _ h; cases h
  | next _ _ ih ih' =>
    intro y hx hy
    have h1 := ih _ hx rfl
    have h2 := ih' _ h1.2 hy
    exact ⟨by omega, h2.2⟩
  | done _ _ _ ih => exact ih
  | few _ _ _ _ => intro y _ h; cases h
  | trans _ ih => exact ih
  | transFails _ _ => intro y _ h; cases h

theorem bill_children {gs : List Gram} {ps : List Trace.Parser} (h : Each (fun p g => Pays str (.gram g) p) ps gs) :
    ∀ m c, On str c → Bill (Trace.childLoop false ps m c) fun o k => ∃ r, ChildEndOf str false o r ∧ Cost str (.seq gs) c.pos r k := by
  induction h with
  | nil => intro m c hc; exact bill_pure ⟨.hit c.pos, ⟨m, c, rfl, by simp, hc.2.1, hc.1, rfl⟩, .nil⟩
  | @cons p g ps gs hp _ ih =>
    intro m c hc
    rw [Trace.childLoop]
    refine (hp c hc).bind (fun r k ⟨e, he, hk⟩ => ?_) (fun p k ⟨e, he, hk⟩ => ?_) (fun k ⟨e, he, hk⟩ => ?_)
    · obtain ⟨o, err⟩ := r
      simp only
      split
      next hs =>
        cases e with
        | hit y => obtain ⟨o', h1, h2, -⟩ := he; cases h1; rw [fixStatus_none, h2] at hs; cases hs
        | miss => obtain ⟨o', h1, h2⟩ := he; cases h1; rw [fixStatus_none, h2] at hs; cases hs
        | abort => exact bill_pure ⟨.abort, fun e he => ⟨_, _, by cases he; rfl, hs⟩, by simpa using .stop hk (by simp)⟩
      next hs =>
        obtain ⟨rfl, ho⟩ := fixed_unmatched hs
        cases e with
        | hit y => obtain ⟨o', h1, h2, -⟩ := he; cases h1; rw [h2] at ho; cases ho
        | abort => have := he o none rfl; rw [hs] at this; cases this
        | miss => exact bill_pure ⟨.miss, rfl, by simpa using .stop hk (by simp)⟩
      next hs =>
        obtain ⟨rfl, ho⟩ := fixed_matched hs
        cases e with
        | miss => obtain ⟨o', h1, h2⟩ := he; cases h1; rw [h2] at ho; cases ho
        | abort => have := he o none rfl; rw [hs] at this; cases this
        | hit y =>
          obtain ⟨o', h1, h2, h3, rfl⟩ := he
          cases h1
          simp only [fixStatus_none, Bool.false_eq_true, if_false]
          refine (ih (m + 1) o ⟨h3, h2, (cost_hit_le hk _ hc.2.2 rfl).2⟩).mono fun o' k' ⟨r, h4, h5⟩ => ⟨r, h4, .cons hk h5⟩
    · cases e with
      | hit y => obtain ⟨o', h1, _⟩ := he; cases h1
      | miss => obtain ⟨o', h1, _⟩ := he; cases h1
      | abort => exact ⟨.abort, (by intro e he; cases he), .stop hk (by simp)⟩
    · cases e with
      | hit y => obtain ⟨o', h1, _⟩ := he; cases h1
      | miss => obtain ⟨o', h1, _⟩ := he; cases h1
      | abort => exact ⟨.abort, (by intro e he; cases he), .stop hk (by simp)⟩

theorem bill_alts {gs : List Gram} {ps : List Trace.Parser} (h : Each (fun p g => Pays str (.gram g) p) ps gs) :
    ∀ c, On str c → Bill (Trace.childLoop true ps 0 c) fun o k => ∃ r, ChildEndOf str true o r ∧ Cost str (.alts gs) c.pos r k := by
  induction h with
  | nil => intro c hc; exact bill_pure ⟨.miss, ⟨c, rfl⟩, .none⟩
  | @cons p g ps gs hp _ ih =>
    intro c hc
    rw [Trace.childLoop]
    refine (hp c hc).bind (fun r k ⟨e, he, hk⟩ => ?_) (fun p k ⟨e, he, hk⟩ => ?_) (fun k ⟨e, he, hk⟩ => ?_)
    · obtain ⟨o, err⟩ := r
      simp only
      split
      next hs =>
        cases e with
        | hit y => obtain ⟨o', h1, h2, -⟩ := he; cases h1; rw [fixStatus_none, h2] at hs; cases hs
        | miss => obtain ⟨o', h1, h2⟩ := he; cases h1; rw [fixStatus_none, h2] at hs; cases hs
        | abort => exact bill_pure ⟨.abort, fun e he => ⟨_, _, by cases he; rfl, hs⟩, by simpa using .take hk (by simp)⟩
      next hs =>
        obtain ⟨rfl, ho⟩ := fixed_unmatched hs
        cases e with
        | hit y => obtain ⟨o', h1, h2, -⟩ := he; cases h1; rw [h2] at ho; cases ho
        | abort => have := he o none rfl; rw [hs] at this; cases this
        | miss => exact (ih c hc).mono fun o' k' ⟨r, h4, h5⟩ => ⟨r, h4, .skip hk h5⟩
      next hs =>
        obtain ⟨rfl, ho⟩ := fixed_matched hs
        cases e with
        | miss => obtain ⟨o', h1, h2⟩ := he; cases h1; rw [h2] at ho; cases ho
        | abort => have := he o none rfl; rw [hs] at this; cases this
        | hit y =>
          obtain ⟨o', h1, h2, h3, rfl⟩ := he
          cases h1
          simp only [fixStatus_none, if_true]
          exact bill_pure ⟨.hit o.pos, ⟨1, o, rfl, by simp, h2, h3, rfl⟩, by simpa using .take hk (by simp)⟩
    · cases e with
      | hit y => obtain ⟨o', h1, _⟩ := he; cases h1
      | miss => obtain ⟨o', h1, _⟩ := he; cases h1
      | abort => exact ⟨.abort, (by intro e he; cases he), .take hk (by simp)⟩
    · cases e with
      | hit y => obtain ⟨o', h1, _⟩ := he; cases h1
      | miss => obtain ⟨o', h1, _⟩ := he; cases h1
      | abort => exact ⟨.abort, (by intro e he; cases he), .take hk (by simp)⟩

/-- The end belongs to the way an iteration ends. -/
def IterEndOf (str : Bytes) (c : Ctx) (x : Out IterEnd) : End → Prop
  | .hit y => ∃ o, x = .ok (.next o) ∧ o.status = .matched ∧ o.str = str ∧ o.pos = y
  | .miss => x = .ok (.brk c)
  | .abort => ∀ e, x = .ok e → ∃ o err, e = .ret o err ∧ o.status = .error

/-- The iteration follows the semantics of the form. -/
def PaysIter (str : Bytes) (f : CForm) (body : Nat → Ctx → M IterEnd) : Prop :=
  ∀ count c, On str c → Bill (body count c) fun o k => ∃ r, IterEndOf str c o r ∧ Cost str f c.pos r k

theorem pays_iteration {te : Bool} {f : CForm} {ps : List Trace.Parser} (hne : te = true → ps ≠ [])
    (h : ∀ c, On str c → Bill (Trace.childLoop te ps 0 c) fun o k => ∃ r, ChildEndOf str te o r ∧ Cost str f c.pos r k) (bottom : Nat) :
    PaysIter str f (Trace.iteration none te ps bottom) := by
  intro count c hc
  unfold Trace.iteration
  refine (h c hc).bind (fun e k ⟨r, hr, hk⟩ => ?_) (fun p k ⟨r, hr, hk⟩ => ?_) (fun k ⟨r, hr, hk⟩ => ?_)
  · cases e with
    | ret o err =>
      cases r with
      | hit y => obtain ⟨m, o', h1, _⟩ := hr; cases h1
      | miss =>
        cases te with
        | true => obtain ⟨o', h1⟩ := hr; cases h1
        | false => cases hr
      | abort => exact bill_pure ⟨.abort, by intro e he; cases he; obtain ⟨o', err', h1, h2⟩ := hr _ rfl; cases h1; exact ⟨o, err, rfl, h2⟩, hk⟩
    | unmatched =>
      cases r with
      | hit y => obtain ⟨m, o', h1, _⟩ := hr; cases h1
      | miss => exact bill_pure ⟨.miss, rfl, hk⟩
      | abort => obtain ⟨o', err', h1, h2⟩ := hr _ rfl; cases h1
    | fell m o =>
      cases r with
      | abort => obtain ⟨o', err', h1, h2⟩ := hr _ rfl; cases h1
      | miss =>
        cases te with
        | false => cases hr
        | true =>
          obtain ⟨o', h1⟩ := hr
          cases h1
          have : 0 < ps.length := List.length_pos_iff.2 (hne rfl)
          simp only [this, and_self, if_true]
          exact bill_pure ⟨.miss, rfl, hk⟩
      | hit y =>
        obtain ⟨m', o', h1, h2, h3, h4, h5⟩ := hr
        cases h1
        have hn : ¬ (te = true ∧ 0 < ps.length ∧ m = 0) := fun hh => h2 hh.1 hh.2.2
        simp only [hn, if_false]
        refine (bill_lift (R := fun r j => r = .ok ({ o with qty := count }, none) ∧ j = 0) ⟨rfl, rfl⟩).bind ?_ (by simp) (by simp)
        rintro _ _ ⟨h6, rfl⟩
        cases h6
        simp only [h3]
        exact bill_pure ⟨.hit y, ⟨_, rfl, rfl, h4, h5⟩, hk⟩
  · cases r with
    | hit y => obtain ⟨m, o', h1, _⟩ := hr; cases h1
    | miss =>
      cases te with
      | true => obtain ⟨o', h1⟩ := hr; cases h1
      | false => cases hr
    | abort => exact ⟨.abort, (by intro e he; cases he), hk⟩
  · cases r with
    | hit y => obtain ⟨m, o', h1, _⟩ := hr; cases h1
    | miss =>
      cases te with
      | true => obtain ⟨o', h1⟩ := hr; cases h1
      | false => cases hr
    | abort => exact ⟨.abort, (by intro e he; cases he), hk⟩

/-- The end belongs to the way the loop ends. -/
def LoopEndOf (str : Bytes) (m : Nat) (x : Out LoopEnd) : End → Prop
  | .hit y => ∃ o, x = .ok (.done m o) ∧ o.status = .matched ∧ o.str = str ∧ o.pos = y
  | .miss => False
  | .abort => ∀ e, x = .ok e → ∃ o err, e = .ret o err ∧ o.status = .error

theorem bill_loop {gs : List Gram} {body : Nat → Ctx → M IterEnd} (h : PaysIter str (.seq gs) body) :
    ∀ n count c, On str c → Bill (Trace.parentLoop true body n count c) fun o k =>
      ∃ r m, LoopEndOf str (count + m) o r ∧ Cost str (.loop m gs) c.pos r k := by
  intro n
  induction n with
  | zero =>
    intro count c _
    exact bill_lift ⟨.abort, 0, (by intro e he; cases he), .forever⟩
  | succ n ih =>
    intro count c hc
    unfold Trace.parentLoop
    refine (h count c hc).bind (fun e k ⟨r, hr, hk⟩ => ?_) (fun p k ⟨r, hr, hk⟩ => ?_) (fun k ⟨r, hr, hk⟩ => ?_)
    · cases r with
      | hit y =>
        obtain ⟨o, h1, h2, h3, rfl⟩ := hr
        cases h1
        refine (ih (count + 1) o ⟨h3, h2, (cost_hit_le hk _ hc.2.2 rfl).2⟩).mono fun o' k' ⟨r, m, h4, h5⟩ => ⟨r, m + 1, ?_, .next hk h5⟩
        rw [show count + (m + 1) = count + 1 + m by omega]; exact h4
      | miss => cases hr; exact bill_pure ⟨.hit c.pos, 0, ⟨c, rfl, hc.2.1, hc.1, rfl⟩, .last hk⟩
      | abort =>
        obtain ⟨o, err, rfl, h2⟩ := hr _ rfl
        exact bill_pure ⟨.abort, 0, by intro e he; cases he; exact ⟨o, err, rfl, h2⟩, .ends hk⟩
    · cases r with
      | hit y => obtain ⟨o, h1, _⟩ := hr; cases h1
      | miss => cases hr
      | abort => exact ⟨.abort, 0, (by intro e he; cases he), .ends hk⟩
    · cases r with
      | hit y => obtain ⟨o, h1, _⟩ := hr; cases h1
      | miss => cases hr
      | abort => exact ⟨.abort, 0, (by intro e he; cases he), .ends hk⟩

/-- One iteration only. -/
def Once (str : Bytes) (f : CForm) (x : Nat) (m : Nat) (r : End) (k : Nat) : Prop :=
  (m = 1 ∧ (∃ y, r = .hit y) ∧ Cost str f x r k) ∨ (m = 0 ∧ r = .hit x ∧ Cost str f x .miss k) ∨ (r = .abort ∧ Cost str f x .abort k)

theorem bill_once {f : CForm} {body : Nat → Ctx → M IterEnd} (h : PaysIter str f body) (c : Ctx) (hc : On str c) :
    Bill (Trace.parentLoop false body 1 0 c) fun o k => ∃ r m, LoopEndOf str m o r ∧ Once str f c.pos m r k := by
  unfold Trace.parentLoop
  refine (h 0 c hc).bind (fun e k ⟨r, hr, hk⟩ => ?_) (fun p k ⟨r, hr, hk⟩ => ?_) (fun k ⟨r, hr, hk⟩ => ?_)
  · cases r with
    | hit y =>
      obtain ⟨o, h1, h2, h3, h4⟩ := hr
      cases h1
      exact bill_pure ⟨.hit y, 1, ⟨o, rfl, h2, h3, h4⟩, .inl ⟨rfl, ⟨y, rfl⟩, hk⟩⟩
    | miss => cases hr; exact bill_pure ⟨.hit c.pos, 0, ⟨c, rfl, hc.2.1, hc.1, rfl⟩, .inr (.inl ⟨rfl, rfl, hk⟩)⟩
    | abort =>
      obtain ⟨o, err, rfl, h2⟩ := hr _ rfl
      exact bill_pure ⟨.abort, 0, (by intro e he; cases he; exact ⟨o, err, rfl, h2⟩), .inr (.inr ⟨rfl, hk⟩)⟩
  · cases r with
    | hit y => obtain ⟨o, h1, _⟩ := hr; cases h1
    | miss => cases hr
    | abort => exact ⟨.abort, 0, (by intro e he; cases he), .inr (.inr ⟨rfl, hk⟩)⟩
  · cases r with
    | hit y => obtain ⟨o, h1, _⟩ := hr; cases h1
    | miss => cases hr
    | abort => exact ⟨.abort, 0, (by intro e he; cases he), .inr (.inr ⟨rfl, hk⟩)⟩

/-- Transformers that call no parser. -/
def Mute (ts : List Trace.Transformer) : Prop := ∀ t ∈ ts, ∀ c l, Bill (t c l) fun _ k => k = 0

theorem bill_applyTrs {ts : List Trace.Transformer} (h : Mute ts) (c : Ctx) : ∀ l, Bill (Trace.applyTrs c ts l) fun _ k => k = 0 := by
  induction ts with
  | nil => intro l; exact bill_pure rfl
  | cons t ts ih =>
    intro l
    unfold Trace.applyTrs
    refine (h t (by simp) c l).bind ?_ (fun _ _ h => h) (fun _ h => h)
    rintro ⟨l', e⟩ k rfl
    cases e with
    | none => exact (ih (fun t ht => h t (by simp [ht])) l').mono fun _ _ h => by omega
    | some e => exact bill_pure rfl

theorem bill_applyTransforms {tr : Option (List Trace.Transformer)} (htr : ∀ ts, tr = some ts → Mute ts) {ctx out : Ctx} (hm : out.status = .matched)
    (hs : out.str = str) : Bill (Trace.applyTransforms tr ctx out) fun o k => k = 0 ∧ (EndOf str o (.hit out.pos) ∨ tr ≠ none ∧ EndOf str o .abort) := by
  cases tr with
  | none => exact bill_pure ⟨rfl, .inl ⟨out, rfl, hm, hs, rfl⟩⟩
  | some ts =>
    simp only [Trace.applyTransforms]
    split
    · exact bill_lift ⟨rfl, .inr ⟨by simp, fun o e h => by cases h⟩⟩
    · refine (bill_applyTrs (htr ts rfl) ctx _).bind ?_ (fun _ _ h => ⟨h, .inr ⟨by simp, fun o e h => by cases h⟩⟩)
        (fun _ h => ⟨h, .inr ⟨by simp, fun o e h => by cases h⟩⟩)
      rintro ⟨l, e⟩ k rfl
      cases e with
      | none => exact bill_pure ⟨rfl, .inl ⟨_, rfl, hm, hs, rfl⟩⟩
      | some e => exact bill_pure ⟨rfl, .inr ⟨by simp, fun o e h => by cases h; simp [fixStatus]⟩⟩

theorem bill_afterLoop {f : Flags} {tr : Option (List Trace.Transformer)} (htr : ∀ ts, tr = some ts → Mute ts) (hn : f.negative = false) (hw : f.rewind = false)
    {ctx out : Ctx} {m : Nat} (hm : out.status = .matched) (hs : out.str = str) :
    Bill (Trace.afterLoop f none tr ctx m out) fun o k => k = 0 ∧
      ((f.qty.min ≤ m ∧ EndOf str o (.hit out.pos)) ∨ ((m : Int) < f.qty.min ∧ EndOf str o .miss) ∨
        (f.qty.min ≤ m ∧ tr ≠ none ∧ EndOf str o .abort)) := by
  unfold Trace.afterLoop
  simp only [hn, hw, negateStatus, Bool.false_eq_true, if_false]
  by_cases h : f.qty.min ≤ m
  · have hck : checkMin f.qty.min m out = out := by unfold checkMin; split <;> first | omega | rfl
    simp only [hck, hm, ne_eq, not_true_eq_false, if_false]
    refine (bill_lift (R := fun r j => r = .ok ({ out with qty := m, status := .matched }, none) ∧ j = 0) ⟨rfl, rfl⟩).bind ?_ (by simp) (by simp)
    rintro _ _ ⟨h6, rfl⟩
    cases h6
    simp only [not_true_eq_false, if_false]
    refine (bill_applyTransforms htr (out := { out with qty := m, status := .matched }) rfl hs).mono ?_
    rintro o k ⟨rfl, h1 | h1⟩
    · exact ⟨rfl, .inl ⟨h, h1⟩⟩
    · exact ⟨rfl, .inr (.inr ⟨h, h1⟩)⟩
  · have hck : checkMin f.qty.min m out = { out with status := .unmatched } := by unfold checkMin; split <;> first | omega | rfl
    simp only [hck]
    exact bill_pure ⟨rfl, .inr (.inl ⟨by omega, _, rfl, rfl⟩)⟩

theorem bill_base {fuel : Nat} {cls : String} {props : List PropItem} {ps : List Trace.Parser} {tr : Option (List Trace.Transformer)}
    (htr : ∀ ts, tr = some ts → Mute ts) (hn : (readProps props).negative = false) (hw : (readProps props).rewind = false)
    {L : Nat → Nat → End → Nat → Prop}
    (hL : ∀ c bottom, On str c → Bill (Trace.parentLoop (decide ((readProps props).qty.max < 0)) (Trace.iteration none (readProps props).thereExists ps bottom)
      (if decide ((readProps props).qty.max < 0) = true then fuel else (readProps props).qty.max.toNat) 0 c) fun o k => ∃ r m, LoopEndOf str m o r ∧ L c.pos m r k)
    (c : Ctx) (hc : On str c) : Bill (Trace.base fuel cls none props ps tr c) fun o k => ∃ r r' m, EndOf str o r' ∧ L c.pos m r k ∧
      ((r' = r ∧ (r = .abort ∨ (readProps props).qty.min ≤ m)) ∨ (r' = .miss ∧ (m : Int) < (readProps props).qty.min ∧ ∃ y, r = .hit y) ∨
        (r' = .abort ∧ (readProps props).qty.min ≤ m ∧ tr ≠ none ∧ ∃ y, r = .hit y)) := by
  unfold Trace.base
  refine (hL { c with cls := cls, status := .matched } c.stack.length ⟨hc.1, rfl, hc.2.2⟩).bind (fun e k ⟨r, m, hr, hk⟩ => ?_) (fun p k ⟨r, m, hr, hk⟩ => ?_) (fun k ⟨r, m, hr, hk⟩ => ?_)
  · cases r with
    | miss => exact hr.elim
    | abort =>
      obtain ⟨o, err, rfl, h2⟩ := hr _ rfl
      exact bill_pure ⟨.abort, .abort, m, (by intro o e h; cases h; simp [fixStatus, h2]), hk, .inl ⟨rfl, .inl rfl⟩⟩
    | hit y =>
      obtain ⟨o, h1, h2, h3, rfl⟩ := hr
      cases h1
      refine (bill_afterLoop htr hn hw h2 h3).mono ?_
      rintro o' j ⟨rfl, h | h | h⟩
      · exact ⟨.hit o.pos, .hit o.pos, m, h.2, hk, .inl ⟨rfl, .inr h.1⟩⟩
      · exact ⟨.hit o.pos, .miss, m, h.2, hk, .inr (.inl ⟨rfl, h.1, _, rfl⟩)⟩
      · exact ⟨.hit o.pos, .abort, m, h.2.2, hk, .inr (.inr ⟨rfl, h.1, h.2.1, _, rfl⟩)⟩
  · cases r with
    | miss => exact hr.elim
    | abort => exact ⟨.abort, .abort, m, (by intro o e h; cases h), hk, .inl ⟨rfl, .inl rfl⟩⟩
    | hit y => obtain ⟨o, h1, _⟩ := hr; cases h1
  · cases r with
    | miss => exact hr.elim
    | abort => exact ⟨.abort, .abort, m, (by intro o e h; cases h), hk, .inl ⟨rfl, .inl rfl⟩⟩
    | hit y => obtain ⟨o, h1, _⟩ := hr; cases h1

/-- `BaseParser` with one iteration. -/
theorem bill_base_once {fuel : Nat} {cls : String} {props : List PropItem} {te : Bool} (hp : readProps props = ⟨false, te, false, qtyOnce⟩)
    {ps : List Trace.Parser} {tr : Option (List Trace.Transformer)} (htr : ∀ ts, tr = some ts → Mute ts) {f : CForm}
    (hit : ∀ bottom, PaysIter str f (Trace.iteration none te ps bottom)) (c : Ctx) (hc : On str c) :
    Bill (Trace.base fuel cls none props ps tr c) fun o k => ∃ r, EndOf str o r ∧ (Cost str f c.pos r k ∨ (r = .abort ∧ tr ≠ none ∧ ∃ y, Cost str f c.pos (.hit y) k)) := by
  refine (bill_base (L := fun x m r k => Once str f x m r k) htr (by rw [hp]) (by rw [hp]) (fun c bottom hc => ?_) c hc).mono ?_
  · simp only [hp]
    exact bill_once (hit bottom) c hc
  · rintro o k ⟨r, r', m, h1, h2, h3⟩
    refine ⟨r', h1, ?_⟩
    have hq : (readProps props).qty.min = 1 := by rw [hp]; rfl
    rw [hq] at h3
    rcases h2 with ⟨rfl, ⟨y, rfl⟩, h2⟩ | ⟨rfl, rfl, h2⟩ | ⟨rfl, h2⟩
    · rcases h3 with ⟨rfl, _⟩ | ⟨_, h3⟩ | ⟨rfl, _, h3, _⟩
      · exact .inl h2
      · omega
      · exact .inr ⟨rfl, h3, y, h2⟩
    · rcases h3 with ⟨rfl, h3⟩ | ⟨rfl, _⟩ | ⟨_, h3, _⟩
      · rcases h3 with h3 | h3
        · cases h3
        · omega
      · exact .inl h2
      · omega
    · rcases h3 with ⟨rfl, _⟩ | ⟨_, h3⟩ | ⟨_, _, _, y, h3⟩
      · exact .inl h2
      · obtain ⟨_, y, h3⟩ := h3; cases h3
      · cases h3

/-! ### Grammars -/

theorem mute_fn {tenv : TEnv} {n : Nat} : ∀ {trs : List TTr} {ts : List TSem}, plainTrs trs = ts.map Tr.fn → Mute (trs.map (TTr.run tenv n))
  | [], _, _ => by intro t ht; cases ht
  | tr :: trs, [], h => by simp [plainTrs] at h
  | tr :: trs, f :: ts, h => by
    simp only [plainTrs, List.map_cons, List.cons.injEq] at h
    intro t ht c l
    rw [List.map_cons] at ht
    rcases List.mem_cons.1 ht with rfl | ht
    · cases tr with
      | fn g => cases n with
        | zero => exact bill_lift rfl
        | succ n => exact bill_lift rfl
      | production _ _ => simp [TTr.plain] at h
    · exact mute_fn h.2 t ht c l

theorem each_pays {P : Trace.Parser → Gram → Prop} {tenv : TEnv} {n : Nat} : ∀ {tgs : List TGram} {gs : List Gram}, plainList tgs = gs →
    (∀ (tg : TGram) g, g ∈ gs → tg.plain = g → P (tg.run tenv n) g) → Each P (tgs.map (TGram.run tenv n)) gs
  | [], _, h, _ => by cases h; exact .nil
  | tg :: tgs, _, h, hp => by
    cases h
    exact .cons (hp tg tg.plain (by simp [plainList]) rfl) (each_pays rfl fun tg g hg h => hp tg g (by simp [plainList, hg]) h)

/-- The traced engine follows the cost semantics, whatever is traced. -/
theorem costed_pays {g : Gram} (hg : Costed str g) (tenv : TEnv) : ∀ (n : Nat) (tg : TGram), tg.plain = g → Pays str (.gram g) (tg.run tenv n) := by
  have hzero : ∀ (g : Gram) (tg : TGram), Pays str (.gram g) (tg.run tenv 0) := fun g tg c _ =>
    bill_lift ⟨.abort, (by intro o e h; cases h), .timeout⟩
  induction hg with
  | @prim p hp =>
    intro n tg htg
    cases n with
    | zero => exact hzero _ _
    | succ n =>
      cases tg <;> simp only [TGram.plain, Gram.prim.injEq, reduceCtorEq] at htg
      subst htg
      intro c hc
      obtain ⟨r, hr⟩ := hp c.pos hc.2.2
      exact bill_wrap _ (bill_lift ⟨r, hr.1 c hc.1 rfl hc.2.1, .prim hr⟩)
  | @flatGroup gs _ ih =>
    intro n tg htg
    cases n with
    | zero => exact hzero _ _
    | succ n =>
      cases tg <;> simp only [TGram.plain, Gram.flatGroup.injEq, reduceCtorEq] at htg
      intro c hc
      refine bill_wrap _ ((bill_base_once (te := false) rfl (by simp) (pays_iteration (by simp) (bill_children (each_pays htg fun tg g hg h => ih g hg n tg h) 0)) c hc).mono ?_)
      rintro o k ⟨r, h1, h2 | ⟨-, h2, -⟩⟩
      · exact ⟨r, h1, .flatGroup h2⟩
      · exact absurd rfl h2
  | @first gs hne _ ih =>
    intro n tg htg
    cases n with
    | zero => exact hzero _ _
    | succ n =>
      cases tg <;> simp only [TGram.plain, Gram.first.injEq, reduceCtorEq] at htg
      intro c hc
      refine bill_wrap _ ((bill_base_once (te := true) rfl (by simp) (pays_iteration ?_ (bill_alts (each_pays htg fun tg g hg h => ih g hg n tg h))) c hc).mono ?_)
      · rintro - h
        rename_i tgs
        cases tgs with
        | nil => exact hne htg.symm
        | cons => simp at h
      · rintro o k ⟨r, h1, h2 | ⟨-, h2, -⟩⟩
        · exact ⟨r, h1, .first hne h2⟩
        · exact absurd rfl h2
  | @«repeat» t gs ht _ ih =>
    intro n tg htg
    cases n with
    | zero => exact hzero _ _
    | succ n =>
      cases tg <;> simp only [TGram.plain, Gram.repeat.injEq, reduceCtorEq] at htg
      obtain ⟨rfl, htg⟩ := htg
      intro c hc
      rename_i i t tgs
      refine bill_wrap _ ((bill_base (props := [.times t]) (L := fun x m r k => Cost str (.loop m gs) x r k) (by simp) rfl rfl (fun c bottom hc => ?_) c hc).mono ?_)
      · have : decide ((readProps [.times t]).qty.max < 0) = true := decide_eq_true ht
        rw [this]
        have := bill_loop (pays_iteration (te := false) (by simp) (bill_children (each_pays htg fun tg g hg h => ih g hg n tg h) 0) bottom) n 0 c hc
        simp only [Nat.zero_add] at this
        exact this
      · rintro o k ⟨r, r', m, h1, h2, ⟨rfl, h3⟩ | ⟨rfl, h3, y, rfl⟩ | ⟨_, _, h3, _⟩⟩
        · exact ⟨_, h1, .done ht h2 h3⟩
        · exact ⟨_, h1, .few ht h2 h3⟩
        · exact absurd rfl h3
  | @trans g ts _ ih =>
    intro n tg htg
    cases n with
    | zero => exact hzero _ _
    | succ n =>
      cases tg <;> simp only [TGram.plain, Gram.trans.injEq, reduceCtorEq] at htg
      obtain ⟨htg, htr⟩ := htg
      intro c hc
      refine bill_wrap _ ((bill_base_once (te := false) rfl ?_ (pays_iteration (by simp) (bill_children (.cons (ih n _ htg) .nil) 0)) c hc).mono ?_)
      · intro us hu
        split at hu
        · cases hu
        · cases hu; exact mute_fn htr
      · have inv : ∀ {x : Nat} {r : End} {k : Nat}, Cost str (.seq [g]) x r k → Cost str (.gram g) x r k := by
          intro x r k h
          cases h with
          | cons h h' => cases h' with
            | nil => exact h
          | stop h _ => exact h
        rintro o k ⟨r, h1, h2 | ⟨rfl, -, y, h2⟩⟩
        · exact ⟨r, h1, .trans (inv h2)⟩
        · exact ⟨_, h1, .transFails (inv h2)⟩

end Takenoco
