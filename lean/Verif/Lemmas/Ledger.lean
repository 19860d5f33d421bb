import Verif.Lemmas.CostSem
/-
A logic for the calls and the results of grammars: how far a match moves, how many ASTs are on the stack then, and how many parser calls
were made.
-/
namespace Takenoco
open Spec Trace

/-- A source: a string, or a slice of objects, with its size. -/
structure LedSource where
  str : Bytes
  slice : Option SliceSrc
  size : Nat

/-- What may happen, with the number of calls: `hit x s y t k`: a match from position `x` to `y`, with `s` ASTs on the stack before and `t`
after it; `miss x k`: no match; `stop x k`: an error, a panic, or out of fuel. -/
structure Bounds where
  hit : Nat → Nat → Nat → Nat → Nat → Prop
  miss : Nat → Nat → Prop
  stop : Nat → Nat → Prop
  zero : ∀ x, stop x 0

variable {σ : LedSource}

/-- The context is in the source. -/
def AtSrc (σ : LedSource) (c : Ctx) : Prop := c.str = σ.str ∧ c.slice = σ.slice ∧ c.status = .matched ∧ c.pos ≤ σ.size

/-- The outcome of a parser is within the bounds. -/
def ResIn (σ : LedSource) (b : Bounds) (x s : Nat) : Out PRes → Nat → Prop
  | .ok (o, none), k => match o.status with
    | .matched => AtSrc σ o ∧ b.hit x s o.pos o.stack.length k
    | .unmatched => b.miss x k
    | .error => b.stop x k
  | .ok (_, some _), k => b.stop x k
  | .panic _, k => b.stop x k
  | .timeout, k => b.stop x k

/-- The parser keeps within the bounds. -/
def Led (σ : LedSource) (b : Bounds) (p : Trace.Parser) : Prop := ∀ c, AtSrc σ c → Bill (p c) (ResIn σ b c.pos c.stack.length)

/-! ### Children -/

/-- The same for the end of the children. -/
def ChildIn (σ : LedSource) (te : Bool) (b : Bounds) (x s : Nat) : Out ChildEnd → Nat → Prop
  | .ok (.fell m o), k => (te = true ∧ m = 0 ∧ b.miss x k) ∨ ((te = true → m ≠ 0) ∧ AtSrc σ o ∧ b.hit x s o.pos o.stack.length k)
  | .ok .unmatched, k => b.miss x k
  | .ok (.ret o _), k => o.status = .error ∧ b.stop x k
  | .panic _, k => b.stop x k
  | .timeout, k => b.stop x k

/-- The bounds of an empty sequence. -/
def nilB : Bounds := ⟨fun x s y t k => y = x ∧ t = s ∧ k = 0, fun _ _ => False, fun _ k => k = 0, fun _ => rfl⟩

/-- The bounds of a sequence. -/
def seqB (b b' : Bounds) : Bounds where
  hit x s z u k := ∃ y t j j', k = j + j' ∧ b.hit x s y t j ∧ b'.hit y t z u j'
  miss x k := b.miss x k ∨ ∃ s y t j j', k = j + j' ∧ b.hit x s y t j ∧ b'.miss y j'
  stop x k := b.stop x k ∨ ∃ s y t j j', k = j + j' ∧ b.hit x s y t j ∧ b'.stop y j'
  zero x := .inl (b.zero x)

/-- The bounds of a choice without alternatives. -/
def noneB : Bounds := ⟨fun _ _ _ _ _ => False, fun _ k => k = 0, fun _ k => k = 0, fun _ => rfl⟩

/-- The bounds of a choice. -/
def altB (b b' : Bounds) : Bounds where
  hit x s y t k := b.hit x s y t k ∨ ∃ j j', k = j + j' ∧ b.miss x j ∧ b'.hit x s y t j'
  miss x k := ∃ j j', k = j + j' ∧ b.miss x j ∧ b'.miss x j'
  stop x k := b.stop x k ∨ ∃ j j', k = j + j' ∧ b.miss x j ∧ b'.stop x j'
  zero x := .inl (b.zero x)

/-- A sequence keeps within the bounds. -/
def LedSeq (σ : LedSource) (b : Bounds) (ps : List Trace.Parser) : Prop :=
  ∀ m c, AtSrc σ c → Bill (Trace.childLoop false ps m c) (ChildIn σ false b c.pos c.stack.length)

/-- The alternatives of a choice keep within the bounds. -/
def LedAlts (σ : LedSource) (b : Bounds) (ps : List Trace.Parser) : Prop :=
  ∀ c, AtSrc σ c → Bill (Trace.childLoop true ps 0 c) (ChildIn σ true b c.pos c.stack.length)

theorem ledSeq_nil : LedSeq σ nilB [] := fun _ _ hc => bill_pure (.inr ⟨by simp, hc, rfl, rfl, rfl⟩)

theorem ledAlts_nil : LedAlts σ noneB [] := fun _ _ => bill_pure (.inl ⟨rfl, rfl, rfl⟩)

theorem led_fixStatus_some (o : Ctx) (e : Err) : (fixStatus o (some e)).status = .error := by cases h : o.status <;> simp [fixStatus, h]

theorem ledSeq_cons {b b' : Bounds} {p : Trace.Parser} {ps : List Trace.Parser} (hp : Led σ b p) (hps : LedSeq σ b' ps) : LedSeq σ (seqB b b') (p :: ps) := by
  intro m c hc
  rw [Trace.childLoop]
  refine (hp c hc).bind (fun r k h => ?_) (fun p k h => .inl h) (fun k h => .inl h)
  obtain ⟨o, e⟩ := r
  cases e with
  | some e =>
    simp only [led_fixStatus_some]
    exact bill_pure ⟨led_fixStatus_some _ _, .inl h⟩
  | none =>
    simp only [fixStatus_none]
    simp only [ResIn] at h
    cases ho : o.status with
    | matched =>
      rw [ho] at h
      simp only [Bool.false_eq_true, if_false]
      refine (hps (m + 1) o h.1).mono fun r j hr => ?_
      rcases r with (⟨m', o'⟩ | _ | ⟨o', e⟩) | _ | _
      · rcases hr with ⟨h1, -⟩ | ⟨-, h1, h2⟩
        · cases h1
        · exact .inr ⟨by simp, h1, _, _, _, _, rfl, h.2, h2⟩
      · exact .inr ⟨_, _, _, _, _, rfl, h.2, hr⟩
      · exact ⟨hr.1, .inr ⟨_, _, _, _, _, rfl, h.2, hr.2⟩⟩
      · exact .inr ⟨_, _, _, _, _, rfl, h.2, hr⟩
      · exact .inr ⟨_, _, _, _, _, rfl, h.2, hr⟩
    | unmatched => rw [ho] at h; simp only [Bool.false_eq_true, if_false]; exact bill_pure (.inl h)
    | error => rw [ho] at h; exact bill_pure ⟨ho, .inl h⟩

theorem ledAlts_cons {b b' : Bounds} {p : Trace.Parser} {ps : List Trace.Parser} (hp : Led σ b p) (hps : LedAlts σ b' ps) : LedAlts σ (altB b b') (p :: ps) := by
  intro c hc
  rw [Trace.childLoop]
  refine (hp c hc).bind (fun r k h => ?_) (fun p k h => .inl h) (fun k h => .inl h)
  obtain ⟨o, e⟩ := r
  cases e with
  | some e =>
    simp only [led_fixStatus_some]
    exact bill_pure ⟨led_fixStatus_some _ _, .inl h⟩
  | none =>
    simp only [fixStatus_none]
    simp only [ResIn] at h
    cases ho : o.status with
    | matched =>
      rw [ho] at h
      simp only [if_true]
      exact bill_pure (.inr ⟨by simp, h.1, .inl h.2⟩)
    | unmatched =>
      rw [ho] at h
      simp only [if_true]
      refine (hps c hc).mono fun r j hr => ?_
      rcases r with (⟨m', o'⟩ | _ | ⟨o', e⟩) | _ | _
      · rcases hr with ⟨h1, h2, h3⟩ | ⟨h1, h2, h3⟩
        · exact .inl ⟨h1, h2, _, _, rfl, h, h3⟩
        · exact .inr ⟨h1, h2, .inr ⟨_, _, rfl, h, h3⟩⟩
      · exact ⟨_, _, rfl, h, hr⟩
      · exact ⟨hr.1, .inr ⟨_, _, rfl, h, hr.2⟩⟩
      · exact .inr ⟨_, _, rfl, h, hr⟩
      · exact .inr ⟨_, _, rfl, h, hr⟩
    | error => rw [ho] at h; exact bill_pure ⟨ho, .inl h⟩

/-! ### Iterations and loops -/

/-- The same for the end of an iteration. -/
def IterIn (σ : LedSource) (b : Bounds) (c : Ctx) : Out IterEnd → Nat → Prop
  | .ok (.next o), k => AtSrc σ o ∧ b.hit c.pos c.stack.length o.pos o.stack.length k
  | .ok (.brk o), k => o = c ∧ b.miss c.pos k
  | .ok (.ret o _), k => o.status = .error ∧ b.stop c.pos k
  | .panic _, k => b.stop c.pos k
  | .timeout, k => b.stop c.pos k

/-- The same for an iteration. -/
def LedIter (σ : LedSource) (b : Bounds) (body : Nat → Ctx → M IterEnd) : Prop := ∀ count c, AtSrc σ c → Bill (body count c) (IterIn σ b c)

theorem ledIter {te : Bool} {b : Bounds} {ps : List Trace.Parser} (hne : te = true → ps ≠ [])
    (h : ∀ c, AtSrc σ c → Bill (Trace.childLoop te ps 0 c) (ChildIn σ te b c.pos c.stack.length)) (bottom : Nat) :
    LedIter σ b (Trace.iteration none te ps bottom) := by
  intro count c hc
  unfold Trace.iteration
  refine (h c hc).bind (fun e k hr => ?_) (fun p k hr => hr) (fun k hr => hr)
  rcases e with ⟨m, o⟩ | _ | ⟨o, e⟩
  · rcases hr with ⟨rfl, rfl, hr⟩ | ⟨h1, h2, h3⟩
    · have : 0 < ps.length := List.length_pos_iff.2 (hne rfl)
      simp only [this, and_self, if_true]
      exact bill_pure ⟨rfl, hr⟩
    · have hn : ¬ (te = true ∧ 0 < ps.length ∧ m = 0) := fun hh => h1 hh.1 hh.2.2
      simp only [hn, if_false]
      refine (bill_lift (R := fun r j => r = .ok ({ o with qty := count }, none) ∧ j = 0) ⟨rfl, rfl⟩).bind ?_ (by simp) (by simp)
      rintro _ _ ⟨h6, rfl⟩
      cases h6
      simp only [h2.2.2.1]
      exact bill_pure ⟨⟨h2.1, h2.2.1, rfl, h2.2.2.2⟩, h3⟩
  · exact bill_pure ⟨rfl, hr⟩
  · exact bill_pure hr

/-- The same for a loop; `H` gets the number of iterations first. -/
def LoopIn (σ : LedSource) (H : Nat → Nat → Nat → Nat → Nat → Nat → Prop) (R : Nat → Nat → Prop) (x s : Nat) : Out LoopEnd → Nat → Prop
  | .ok (.done m o), k => AtSrc σ o ∧ H m x s o.pos o.stack.length k
  | .ok (.ret o _), k => o.status = .error ∧ R x k
  | .panic _, k => R x k
  | .timeout, k => R x k

/-- `b'` are bounds for any number of iterations, each within `b`. -/
structure Iterates (σ : LedSource) (b b' : Bounds) : Prop where
  last : ∀ x s k, x ≤ σ.size → b.miss x k → b'.hit x s x s k
  next : ∀ x s y t z u j k, x ≤ σ.size → b.hit x s y t j → b'.hit y t z u k → b'.hit x s z u (j + k)
  ends : ∀ x k, x ≤ σ.size → b.stop x k → b'.stop x k
  later : ∀ x s y t j k, x ≤ σ.size → b.hit x s y t j → b'.stop y k → b'.stop x (j + k)

theorem ledLoop {b b' : Bounds} (hb : Iterates σ b b') {body : Nat → Ctx → M IterEnd} (h : LedIter σ b body) :
    ∀ n count c, AtSrc σ c → Bill (Trace.parentLoop true body n count c) (LoopIn σ (fun _ => b'.hit) b'.stop c.pos c.stack.length) := by
  intro n
  induction n with
  | zero => intro count c _; exact bill_lift (b'.zero _)
  | succ n ih =>
    intro count c hc
    unfold Trace.parentLoop
    refine (h count c hc).bind (fun e k hr => ?_) (fun p k hr => hb.ends _ _ hc.2.2.2 hr) (fun k hr => hb.ends _ _ hc.2.2.2 hr)
    cases e with
    | next o =>
      refine (ih (count + 1) o hr.1).mono fun r j hj => ?_
      rcases r with (⟨m, o'⟩ | ⟨o', e⟩) | _ | _
      · exact ⟨hj.1, hb.next _ _ _ _ _ _ _ _ hc.2.2.2 hr.2 hj.2⟩
      · exact ⟨hj.1, hb.later _ _ _ _ _ _ hc.2.2.2 hr.2 hj.2⟩
      · exact hb.later _ _ _ _ _ _ hc.2.2.2 hr.2 hj
      · exact hb.later _ _ _ _ _ _ hc.2.2.2 hr.2 hj
    | brk o => obtain ⟨rfl, h2⟩ := hr; exact bill_pure ⟨hc, hb.last _ _ _ hc.2.2.2 h2⟩
    | ret o e => exact bill_pure ⟨hr.1, hb.ends _ _ hc.2.2.2 hr.2⟩

/-- At most one iteration. -/
def onceH (b : Bounds) (m x s y t k : Nat) : Prop := (m = 1 ∧ b.hit x s y t k) ∨ (m = 0 ∧ y = x ∧ t = s ∧ b.miss x k)

theorem ledOnce {b : Bounds} {body : Nat → Ctx → M IterEnd} (h : LedIter σ b body) (c : Ctx) (hc : AtSrc σ c) :
    Bill (Trace.parentLoop false body 1 0 c) (LoopIn σ (onceH b) b.stop c.pos c.stack.length) := by
  unfold Trace.parentLoop
  refine (h 0 c hc).bind (fun e k hr => ?_) (fun p k hr => hr) (fun k hr => hr)
  cases e with
  | next o => exact bill_pure ⟨hr.1, .inl ⟨rfl, hr.2⟩⟩
  | brk o => obtain ⟨rfl, h2⟩ := hr; exact bill_pure ⟨hc, .inr ⟨rfl, rfl, rfl, h2⟩⟩
  | ret o e => exact bill_pure hr

/-! ### Transformers -/

/-- What transformers do: `P l q k`: they make `q` ASTs of `l`, with `k` calls; `F l k`: they fail. -/
def TrIn (P : Nat → Nat → Nat → Prop) (F : Nat → Nat → Prop) (l : Nat) : Out (List Ast × Option Err) → Nat → Prop
  | .ok (l', none), k => P l l'.length k
  | .ok (_, some _), k => F l k
  | .panic _, k => F l k
  | .timeout, k => F l k

/-- The bounds after the transformers. -/
def transB (b : Bounds) (P : Nat → Nat → Nat → Prop) (F : Nat → Nat → Prop) : Bounds where
  hit x s y u k := ∃ t q j j', k = j + j' ∧ u = s + q ∧ s ≤ t ∧ b.hit x s y t j ∧ P (t - s) q j'
  miss := b.miss
  stop x k := b.stop x k ∨ ∃ s y t j j', k = j + j' ∧ b.hit x s y t j ∧ (F (t - s) j' ∨ j' = 0)
  zero x := .inl (b.zero x)

/-- `BaseParser` after the loop. -/
def AfterIn (σ : LedSource) (min : Int) (H : Nat → Nat → Nat → Nat → Nat → Nat → Prop) (R : Nat → Nat → Prop) (tr : Option (List Trace.Transformer)) (b : Bounds) : Prop :=
  (∀ m x s y t k, x ≤ σ.size → H m x s y t k → (m : Int) < min → b.miss x k) ∧
  (∀ m x s y t k, x ≤ σ.size → H m x s y t k → min ≤ m → ∀ ctx out : Ctx, AtSrc σ out → ctx.stack.length = s → ctx.pos = x → out.pos = y → out.stack.length = t →
    Bill (Trace.applyTransforms tr ctx out) fun o j => ResIn σ b x s o (k + j)) ∧
  ∀ x k, x ≤ σ.size → R x k → b.stop x k

theorem led_base {fuel : Nat} {cls : String} {props : List PropItem} {ps : List Trace.Parser} {tr : Option (List Trace.Transformer)}
    (hn : (readProps props).negative = false) (hw : (readProps props).rewind = false) {H : Nat → Nat → Nat → Nat → Nat → Nat → Prop} {R : Nat → Nat → Prop} {b : Bounds}
    (hL : ∀ c bottom, AtSrc σ c → Bill (Trace.parentLoop (decide ((readProps props).qty.max < 0)) (Trace.iteration none (readProps props).thereExists ps bottom)
      (if decide ((readProps props).qty.max < 0) = true then fuel else (readProps props).qty.max.toNat) 0 c) (LoopIn σ H R c.pos c.stack.length))
    (hA : AfterIn σ (readProps props).qty.min H R tr b) : Led σ b (Trace.base fuel cls none props ps tr) := by
  intro c hc
  unfold Trace.base
  refine (hL { c with cls := cls, status := .matched } c.stack.length ⟨hc.1, hc.2.1, rfl, hc.2.2.2⟩).bind (fun e k hr => ?_)
    (fun p k hr => hA.2.2 _ _ hc.2.2.2 hr) (fun k hr => hA.2.2 _ _ hc.2.2.2 hr)
  cases e with
  | ret o e =>
    refine bill_pure ?_
    cases e with
    | none => simp only [ResIn, hr.1, Nat.add_zero]; exact hA.2.2 _ _ hc.2.2.2 hr.2
    | some e => exact hA.2.2 _ _ hc.2.2.2 hr.2
  | done m o =>
    obtain ⟨ho, hk⟩ := hr
    simp only at hk
    unfold Trace.afterLoop
    simp only [hn, hw, negateStatus, Bool.false_eq_true, if_false]
    by_cases h : (readProps props).qty.min ≤ m
    · have hck : checkMin (readProps props).qty.min m o = o := by unfold checkMin; split <;> first | omega | rfl
      simp only [hck, ho.2.2.1, ne_eq, not_true_eq_false, if_false]
      refine (bill_lift (R := fun r j => r = .ok ({ o with qty := m, status := .matched }, none) ∧ j = 0) ⟨rfl, rfl⟩).bind ?_ (by simp) (by simp)
      rintro _ _ ⟨h6, rfl⟩
      cases h6
      simp only [not_true_eq_false, if_false, Nat.zero_add]
      exact hA.2.1 m _ _ _ _ k hc.2.2.2 hk h { c with cls := cls } { o with qty := m, status := .matched } ⟨ho.1, ho.2.1, rfl, ho.2.2.2⟩ rfl rfl rfl rfl
    · have hck : checkMin (readProps props).qty.min m o = { o with status := .unmatched } := by unfold checkMin; split <;> first | omega | rfl
      simp only [hck]
      exact bill_pure (hA.1 m _ _ _ _ _ hc.2.2.2 hk (by omega))

theorem led_after_none {min : Int} {H : Nat → Nat → Nat → Nat → Nat → Nat → Prop} {R : Nat → Nat → Prop} {b : Bounds}
    (h1 : ∀ m x s y t k, x ≤ σ.size → H m x s y t k → (m : Int) < min → b.miss x k) (h2 : ∀ m x s y t k, x ≤ σ.size → H m x s y t k → min ≤ m → b.hit x s y t k)
    (h3 : ∀ x k, x ≤ σ.size → R x k → b.stop x k) : AfterIn σ min H R none b := by
  refine ⟨h1, fun m x s y t k hx hk hm ctx out ho hs hxx hy ht => bill_pure ?_, h3⟩
  subst hy ht
  simp only [ResIn, ho.2.2.1, Nat.add_zero]
  exact ⟨ho, h2 _ _ _ _ _ _ hx hk hm⟩

theorem led_once {fuel : Nat} {cls : String} {props : List PropItem} {te : Bool} (hp : readProps props = ⟨false, te, false, qtyOnce⟩)
    {ps : List Trace.Parser} {b : Bounds} (hit : ∀ bottom, LedIter σ b (Trace.iteration none te ps bottom)) : Led σ b (Trace.base fuel cls none props ps none) := by
  refine led_base (H := onceH b) (R := b.stop) (by rw [hp]) (by rw [hp]) (fun c bottom hc => ?_) (led_after_none ?_ ?_ (fun _ _ _ h => h))
  · simp only [hp]
    exact ledOnce (hit bottom) c hc
  · rw [hp]
    rintro m x s y t k - (⟨rfl, h⟩ | ⟨rfl, rfl, rfl, h⟩) hm
    · simp [qtyOnce] at hm
    · exact h
  · rw [hp]
    rintro m x s y t k - (⟨rfl, h⟩ | ⟨rfl, rfl, rfl, h⟩) hm
    · exact h
    · simp [qtyOnce] at hm

theorem led_trans {fuel : Nat} {cls : String} {p : Trace.Parser} {ts : List Trace.Transformer} {b : Bounds} (hp : Led σ b p) {P : Nat → Nat → Nat → Prop} {F : Nat → Nat → Prop}
    (ht : ∀ c l, Bill (Trace.applyTrs c ts l) (TrIn P F l.length)) : Led σ (transB b P F) (Trace.base fuel cls none [] [p] (some ts)) := by
  refine led_base (H := onceH (seqB b nilB)) (R := (seqB b nilB).stop) rfl rfl (fun c bottom hc => ?_) ⟨?_, ?_, ?_⟩
  · exact ledOnce (ledIter (te := false) (by simp) (ledSeq_cons hp ledSeq_nil 0) bottom) c hc
  · rintro m x s y t k - (⟨rfl, h⟩ | ⟨rfl, rfl, rfl, h⟩) hm
    · simp [readProps, qtyOnce] at hm
    · rcases h with h | ⟨_, _, _, _, _, _, _, h⟩
      · exact h
      · cases h
  · rintro m x s y t k hx (⟨rfl, h⟩ | ⟨rfl, rfl, rfl, h⟩) hm
    · obtain ⟨y', t', j, j', rfl, h, rfl, rfl, rfl⟩ := h
      intro ctx out ho hs hxx hy hlen
      simp only [Trace.applyTransforms]
      split
      · exact bill_lift (.inr ⟨_, _, _, j, 0, rfl, h, .inr rfl⟩)
      · refine (ht ctx _).bind ?_ (fun p k hr => .inr ⟨s, _, _, j, k, rfl, h, .inl ?_⟩) (fun k hr => .inr ⟨s, _, _, j, k, rfl, h, .inl ?_⟩)
        · rintro ⟨l, e⟩ k hr
          simp only [TrIn, List.length_drop, hlen, hs] at hr
          cases e with
          | some e => exact bill_pure (.inr ⟨s, _, _, j, k, by omega, h, .inl hr⟩)
          | none =>
            refine bill_pure ?_
            simp only [ResIn, ho.2.2.1, hy]
            exact ⟨⟨ho.1, ho.2.1, rfl, by rw [← hy]; exact ho.2.2.2⟩, t, l.length, j, k, by omega, by simp; omega, by omega, h, hr⟩
        · simpa only [TrIn, List.length_drop, hlen, hs] using hr
        · simpa only [TrIn, List.length_drop, hlen, hs] using hr
    · simp [readProps, qtyOnce] at hm
  · rintro x k - (h | ⟨s, y, t, j, j', rfl, h, rfl⟩)
    · exact .inl h
    · exact .inr ⟨s, y, t, j, 0, rfl, h, .inr rfl⟩

/-! ### Grammars -/

/-- One more call. -/
def tickB (b : Bounds) : Bounds where
  hit x s y t k := ∃ j, k = 1 + j ∧ b.hit x s y t j
  miss x k := ∃ j, k = 1 + j ∧ b.miss x j
  stop x k := k = 0 ∨ ∃ j, k = 1 + j ∧ b.stop x j
  zero _ := .inl rfl

theorem led_wrap (i : Option Info) {p : Trace.Parser} {b : Bounds} (h : Led σ b p) : Led σ (tickB b) (wrap i p) := by
  intro c hc
  refine bill_wrap i ((h c hc).mono fun r k hr => ?_)
  rcases r with ⟨o, _ | e⟩ | _ | _
  · simp only [ResIn] at hr ⊢
    split at hr <;> rename_i ho
    · exact ⟨hr.1, _, rfl, hr.2⟩
    · exact ⟨_, rfl, hr⟩
    · exact .inr ⟨_, rfl, hr⟩
  · exact .inr ⟨_, rfl, hr⟩
  · exact .inr ⟨_, rfl, hr⟩
  · exact .inr ⟨_, rfl, hr⟩

/-- `b` implies `b'` in the source. -/
structure Implies (σ : LedSource) (b b' : Bounds) : Prop where
  hit : ∀ x s y t k, x ≤ σ.size → y ≤ σ.size → b.hit x s y t k → b'.hit x s y t k
  miss : ∀ x k, x ≤ σ.size → b.miss x k → b'.miss x k
  stop : ∀ x k, x ≤ σ.size → b.stop x k → b'.stop x k

theorem Led.mono {p : Trace.Parser} {b b' : Bounds} (h : Led σ b p) (hb : Implies σ b b') : Led σ b' p := by
  intro c hc
  refine (h c hc).mono fun r k hr => ?_
  rcases r with ⟨o, _ | e⟩ | _ | _
  · simp only [ResIn] at hr ⊢
    split at hr <;> rename_i ho
    · exact ⟨hr.1, hb.hit _ _ _ _ _ hc.2.2.2 hr.1.2.2.2 hr.2⟩
    · exact hb.miss _ _ hc.2.2.2 hr
    · exact hb.stop _ _ hc.2.2.2 hr
  · exact hb.stop _ _ hc.2.2.2 hr
  · exact hb.stop _ _ hc.2.2.2 hr
  · exact hb.stop _ _ hc.2.2.2 hr

variable {tenv : TEnv} {N : Nat}

/-- The grammar keeps within the bounds with any fuel below `N`, whatever is traced. -/
def LedG (σ : LedSource) (tenv : TEnv) (N : Nat) (b : Bounds) (g : Gram) : Prop := ∀ m, m < N → ∀ tg : TGram, tg.plain = g → Led σ b (tg.run tenv m)

/-- The same for a sequence. -/
def LedGs (σ : LedSource) (tenv : TEnv) (N : Nat) (b : Bounds) (gs : List Gram) : Prop :=
  ∀ m, m < N → ∀ tgs : List TGram, plainList tgs = gs → LedSeq σ b (tgs.map (TGram.run tenv m))

/-- The same for the alternatives of a choice. -/
def LedGa (σ : LedSource) (tenv : TEnv) (N : Nat) (b : Bounds) (gs : List Gram) : Prop :=
  ∀ m, m < N → ∀ tgs : List TGram, plainList tgs = gs → LedAlts σ b (tgs.map (TGram.run tenv m))

theorem LedG.mono {g : Gram} {b b' : Bounds} (h : LedG σ tenv N b g) (hb : Implies σ b b') : LedG σ tenv N b' g := fun m hm tg htg => (h m hm tg htg).mono hb

theorem LedGs.mono {gs : List Gram} {b b' : Bounds} (h : LedGs σ tenv N b gs) (hb : Implies σ b b') : LedGs σ tenv N b' gs := by
  intro m hm tgs htgs i c hc
  refine (h m hm tgs htgs i c hc).mono fun r k hr => ?_
  rcases r with (⟨j, o⟩ | _ | ⟨o, e⟩) | _ | _
  · rcases hr with hr | hr
    · exact .inl ⟨hr.1, hr.2.1, hb.miss _ _ hc.2.2.2 hr.2.2⟩
    · exact .inr ⟨hr.1, hr.2.1, hb.hit _ _ _ _ _ hc.2.2.2 hr.2.1.2.2.2 hr.2.2⟩
  · exact hb.miss _ _ hc.2.2.2 hr
  · exact ⟨hr.1, hb.stop _ _ hc.2.2.2 hr.2⟩
  · exact hb.stop _ _ hc.2.2.2 hr
  · exact hb.stop _ _ hc.2.2.2 hr

theorem ledGs_nil : LedGs σ tenv N nilB [] := by
  intro m hm tgs h
  cases tgs with
  | nil => exact ledSeq_nil
  | cons => simp [plainList] at h

theorem ledGs_cons {g : Gram} {gs : List Gram} {b b' : Bounds} (h : LedG σ tenv N b g) (hs : LedGs σ tenv N b' gs) : LedGs σ tenv N (seqB b b') (g :: gs) := by
  intro m hm tgs htg
  cases tgs with
  | nil => simp [plainList] at htg
  | cons tg tgs =>
    simp only [plainList, List.cons.injEq] at htg
    exact ledSeq_cons (h m hm tg htg.1) (hs m hm tgs htg.2)

theorem ledGa_nil : LedGa σ tenv N noneB [] := by
  intro m hm tgs h
  cases tgs with
  | nil => exact ledAlts_nil
  | cons => simp [plainList] at h

theorem ledGa_cons {g : Gram} {gs : List Gram} {b b' : Bounds} (h : LedG σ tenv N b g) (hs : LedGa σ tenv N b' gs) : LedGa σ tenv N (altB b b') (g :: gs) := by
  intro m hm tgs htg
  cases tgs with
  | nil => simp [plainList] at htg
  | cons tg tgs =>
    simp only [plainList, List.cons.injEq] at htg
    exact ledAlts_cons (h m hm tg htg.1) (hs m hm tgs htg.2)

theorem led_zero {b : Bounds} {tg : TGram} : Led σ b (tg.run tenv 0) := fun _ _ => bill_lift (b.zero _)

theorem ledG_prim {p : Sem} {b : Bounds} (h : ∀ c, AtSrc σ c → ResIn σ b c.pos c.stack.length (p c) 0) : LedG σ tenv N (tickB b) (.prim p) := by
  intro m hm tg htg
  cases m with
  | zero => exact led_zero
  | succ m =>
    cases tg <;> simp only [TGram.plain, Gram.prim.injEq, reduceCtorEq] at htg
    subst htg
    exact led_wrap _ fun c hc => bill_lift (h c hc)

theorem ledG_flatGroup {gs : List Gram} {b : Bounds} (h : LedGs σ tenv N b gs) : LedG σ tenv N (tickB b) (.flatGroup gs) := by
  intro m hm tg htg
  cases m with
  | zero => exact led_zero
  | succ m =>
    cases tg <;> simp only [TGram.plain, Gram.flatGroup.injEq, reduceCtorEq] at htg
    exact led_wrap _ (led_once (te := false) rfl (ledIter (by simp) (h m (by omega) _ htg 0)))

theorem ledG_first {gs : List Gram} (hne : gs ≠ []) {b : Bounds} (h : LedGa σ tenv N b gs) : LedG σ tenv N (tickB b) (.first gs) := by
  intro m hm tg htg
  cases m with
  | zero => exact led_zero
  | succ m =>
    cases tg <;> simp only [TGram.plain, Gram.first.injEq, reduceCtorEq] at htg
    refine led_wrap _ (led_once (te := true) rfl (ledIter ?_ (h m (by omega) _ htg)))
    rintro - h
    rename_i tgs
    cases tgs with
    | nil => exact hne htg.symm
    | cons => simp at h

theorem ledG_star {gs : List Gram} {b b' : Bounds} (h : LedGs σ tenv N b gs) (hb : Iterates σ b b') : LedG σ tenv N (tickB b') (Gram.star gs) := by
  intro m hm tg htg
  cases m with
  | zero => exact led_zero
  | succ m =>
    unfold Gram.star at htg
    cases tg <;> simp only [TGram.plain, Gram.repeat.injEq, reduceCtorEq] at htg
    obtain ⟨rfl, htg⟩ := htg
    refine led_wrap _ (led_base (H := fun _ => b'.hit) (R := b'.stop) rfl rfl (fun c bottom hc => ?_) (led_after_none ?_ (fun _ _ _ _ _ _ _ h _ => h) (fun _ _ _ h => h)))
    · exact ledLoop hb (ledIter (te := false) (by simp) (h m (by omega) _ htg 0) bottom) m 0 c hc
    · intro m x s y t k _ _ hm
      have : (m : Int) < 0 := hm
      omega

/-- The bounds of an option. -/
def optB (b : Bounds) : Bounds where
  hit x s y t k := b.hit x s y t k ∨ (y = x ∧ t = s ∧ b.miss x k)
  miss _ _ := False
  stop := b.stop
  zero := b.zero

theorem ledG_opt {gs : List Gram} {b : Bounds} (h : LedGs σ tenv N b gs) : LedG σ tenv N (tickB (optB b)) (Gram.opt gs) := by
  intro m hm tg htg
  cases m with
  | zero => exact led_zero
  | succ m =>
    unfold Gram.opt at htg
    cases tg <;> simp only [TGram.plain, Gram.repeat.injEq, reduceCtorEq] at htg
    obtain ⟨rfl, htg⟩ := htg
    refine led_wrap _ (led_base (H := onceH b) (R := b.stop) rfl rfl (fun c bottom hc => ?_) (led_after_none ?_ ?_ (fun _ _ _ h => h)))
    · exact ledOnce (ledIter (te := false) (by simp) (h m (by omega) _ htg 0) bottom) c hc
    · intro m x s y t k _ _ hm
      have : (m : Int) < 0 := hm
      omega
    · rintro m x s y t k - (⟨rfl, h⟩ | ⟨rfl, rfl, rfl, h⟩) hm
      · exact .inl h
      · exact .inr ⟨rfl, rfl, h⟩

/-- The transformers keep within the bounds with any fuel below `N`. -/
def LedTr (tenv : TEnv) (N : Nat) (P : Nat → Nat → Nat → Prop) (F : Nat → Nat → Prop) (ts : List Tr) : Prop :=
  ∀ m, m < N → ∀ trs : List TTr, plainTrs trs = ts → ∀ c l, Bill (Trace.applyTrs c (trs.map (TTr.run tenv m)) l) (TrIn P F l.length)

theorem ledG_trans {g : Gram} {ts : List Tr} (hne : ts ≠ []) {b : Bounds} {P : Nat → Nat → Nat → Prop} {F : Nat → Nat → Prop} (h : LedG σ tenv N b g)
    (ht : LedTr tenv N P F ts) : LedG σ tenv N (tickB (transB b P F)) (.trans g ts) := by
  intro m hm tg htg
  cases m with
  | zero => exact led_zero
  | succ m =>
    cases tg <;> simp only [TGram.plain, Gram.trans.injEq, reduceCtorEq] at htg
    rename_i i tg trs
    have hn : trs.isEmpty = false := by
      cases trs with
      | nil => exact absurd htg.2.symm hne
      | cons => rfl
    simp only [TGram.run, hn]
    exact led_wrap _ (led_trans (h m (by omega) _ htg.1) (ht m (by omega) _ htg.2))

theorem ledG_indirect {env : Env} (henv : ∀ name k, (tenv name k).plain = env name) {name : Nat} {b : Bounds} (h : LedG σ tenv N b (env name)) :
    LedG σ tenv (N + 1) (tickB b) (.indirect name) := by
  intro m hm tg htg
  cases m with
  | zero => exact led_zero
  | succ m =>
    cases tg <;> simp only [TGram.plain, Gram.indirect.injEq, reduceCtorEq] at htg
    subst htg
    refine led_wrap _ ?_
    intro c hc
    unfold light
    refine Bill.bind (R := ResIn σ b c.pos c.stack.length) ?_ (fun r k hr => ?_) (fun p k hr => hr) (fun k hr => hr)
    · intro s
      exact h m (by omega) _ (henv _ _) c hc { s with clock := s.clock + 1 }
    · obtain ⟨o, e⟩ := r
      refine bill_pure ?_
      cases e with
      | some e => exact hr
      | none =>
        simp only [fixStatus_none]
        simp only [ResIn] at hr
        split at hr <;> rename_i ho <;> simp only [ResIn, ho, if_true, reduceCtorEq, if_false, Nat.add_zero]
        · exact ⟨⟨hr.1.1, hr.1.2.1, rfl, hr.1.2.2.2⟩, hr.2⟩
        · exact hr
        · exact hr

/-! ### Transformers that call no parsers -/

theorem bill_applyTrs_fn {m : Nat} : ∀ {trs : List TTr} {fs : List TSem}, plainTrs trs = fs.map Tr.fn → ∀ (c : Ctx) (l : List Ast),
    Bill (Trace.applyTrs c (trs.map (TTr.run tenv m)) l) fun o k => k = 0 ∧ (o = applyTrs c fs l ∨ o = .timeout)
  | [], fs, h, c, l => by
    cases fs with
    | nil => exact bill_pure ⟨rfl, .inl rfl⟩
    | cons => simp [plainTrs] at h
  | tr :: trs, fs, h, c, l => by
    cases fs with
    | nil => simp [plainTrs] at h
    | cons f fs =>
      simp only [plainTrs, List.map_cons, List.cons.injEq] at h
      cases tr with
      | production _ _ => simp [TTr.plain] at h
      | fn g =>
        obtain ⟨h1, h2⟩ := h
        simp only [TTr.plain, Tr.fn.injEq] at h1
        subst h1
        simp only [List.map_cons, Trace.applyTrs, applyTrs]
        cases m with
        | zero =>
          refine (bill_lift (R := fun o k => o = .timeout ∧ k = 0) ⟨rfl, rfl⟩).bind ?_ (by simp) (by simp)
          intro a k h; cases h.1
        | succ m =>
          refine (bill_lift (R := fun o k => o = g c l ∧ k = 0) ⟨rfl, rfl⟩).bind ?_ ?_ ?_
          · rintro ⟨l', e⟩ k ⟨h3, rfl⟩
            rw [← h3]
            cases e with
            | none =>
              refine (bill_applyTrs_fn h2 c l').mono fun o k hk => ?_
              simpa using hk
            | some e => exact bill_pure ⟨rfl, .inl rfl⟩
          · rintro p k ⟨h3, rfl⟩; rw [← h3]; exact ⟨rfl, .inl rfl⟩
          · rintro k ⟨h3, rfl⟩; exact ⟨rfl, .inr rfl⟩

theorem ledTr_fn {fs : List TSem} {Q : Nat → Nat → Prop} (h : ∀ c l l', applyTrs c fs l = .ok (l', none) → Q l.length l'.length) :
    LedTr tenv N (fun l q k => k = 0 ∧ Q l q) (fun _ k => k = 0) (fs.map .fn) := by
  intro m hm trs htrs c l
  refine (bill_applyTrs_fn htrs c l).mono ?_
  rintro o k ⟨rfl, h1 | rfl⟩
  · rcases o with ⟨l', _ | e⟩ | _ | _
    · exact ⟨rfl, h c l l' h1.symm⟩
    · rfl
    · rfl
    · rfl
  · rfl

end Takenoco
