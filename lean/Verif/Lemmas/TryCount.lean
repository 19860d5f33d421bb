import Verif.Spec.TryCount
import Verif.Lemmas.Expressive
import Verif.Lemmas.LinearRun
import Verif.Lemmas.TraceAll
/-
The engine calls exactly one parser for each expression that is tried.
-/
namespace Takenoco
open Spec Trace

/-- If there is a result, exactly `B` parsers have been called for it. -/
def Costs {α : Type} (x : M α) (B : Nat) (P : α → Prop) : Prop :=
  ∀ s a, (x s).1 = .ok a → callCount (x s).2.events = callCount s.events + B ∧ P a

section
variable {α β : Type} {B B' : Nat} {P : α → Prop} {Q : β → Prop}

theorem costs_lift {y : Out α} (h : ∀ a, y = .ok a → P a) : Costs (lift y) 0 P := fun _ a ha => ⟨rfl, h a ha⟩

theorem costs_pure {a : α} (h : P a) : Costs (pure a) 0 P := fun _ b hb => ⟨rfl, by cases hb; exact h⟩

theorem Costs.mono {x : M α} {P' : α → Prop} (h : Costs x B P) (hB : B = B') (hP : ∀ a, P a → P' a) : Costs x B' P' :=
  fun s a ha => ⟨hB ▸ (h s a ha).1, hP a (h s a ha).2⟩

theorem Costs.bind {x : M α} {f : α → M β} (hx : Costs x B P) (hf : ∀ a, P a → Costs (f a) B' Q) : Costs (x >>= f) (B + B') Q := by
  intro s b hb
  change (M.bind x f s).1 = .ok b at hb
  show callCount (M.bind x f s).2.events = _ ∧ Q b
  have hx := hx s
  rcases hxs : x s with ⟨o, s'⟩
  rw [hxs] at hx
  simp only [M.bind, hxs] at hb ⊢
  cases o with
  | ok a =>
    obtain ⟨h1, h2⟩ := hx a rfl
    obtain ⟨h3, h4⟩ := hf a h2 s' b hb
    simp only at h1
    exact ⟨by simp only; omega, h4⟩
  | panic r => cases hb
  | timeout => cases hb

theorem costs_wrap (i : Info) {p : Trace.Parser} {c : Ctx} {P : PRes → Prop} (h : Costs (p c) B P) : Costs (wrap (some i) p c) (1 + B) P := by
  intro s r hr
  change (tracer i p c s).1 = .ok r at hr
  show callCount (tracer i p c s).2.events = _ ∧ P r
  have h1 := h { s with events := s.events ++ [.before i c] }
  unfold tracer at hr ⊢
  rcases hp : p c { s with events := s.events ++ [.before i c] } with ⟨o, s'⟩
  rw [hp] at h1
  simp only [hp] at hr ⊢
  cases o with
  | ok a =>
    obtain ⟨h2, h3⟩ := h1 a rfl
    obtain ⟨o, e⟩ := a
    simp only [callCount_append, show callCount [Event.before i c] = 1 from rfl] at h2
    simp only [callCount_append, show callCount [Event.after i o e] = 0 from rfl] at hr ⊢
    cases hr
    exact ⟨by omega, h3⟩
  | panic r => cases hr
  | timeout => cases hr

/-! ### `BaseParser` without callback and transformers -/

theorem costs_afterLoop (f : Flags) (ctx out : Ctx) (count : Nat) : Costs (Trace.afterLoop f none none ctx count out) 0 fun _ => True := by
  unfold Trace.afterLoop
  simp only
  split
  · exact costs_pure trivial
  · refine Costs.bind (B := 0) (B' := 0) (P := fun _ => True) (costs_lift fun _ _ => trivial) fun r _ => ?_
    obtain ⟨o, e⟩ := r
    simp only
    split
    · exact costs_pure trivial
    · exact costs_pure trivial

theorem costs_base {fuel : Nat} {cls : String} {props : List PropItem} {ps : List Trace.Parser} {c : Ctx}
    (h : Costs (Trace.parentLoop (decide ((readProps props).qty.max < 0)) (Trace.iteration none (readProps props).thereExists ps c.stack.length)
      (if decide ((readProps props).qty.max < 0) then fuel else (readProps props).qty.max.toNat) 0 { c with cls := cls, status := .matched }) B fun _ => True) :
    Costs (Trace.base fuel cls none props ps none c) B fun _ => True := by
  unfold Trace.base
  refine Costs.bind (B' := 0) h fun r _ => ?_
  cases r with
  | ret o err => exact costs_pure trivial
  | done m o => exact costs_afterLoop _ _ _ _

theorem costs_iteration {te : Bool} {ps : List Trace.Parser} {bottom count : Nat} {c : Ctx} {P : ChildEnd → Prop} (h : Costs (Trace.childLoop te ps 0 c) B P)
    {Q : IterEnd → Prop} (hret : ∀ o e, P (.ret o e) → Q (.ret o e)) (hun : P .unmatched → Q (.brk c)) (hbrk : ∀ o, te = true → P (.fell 0 o) → Q (.brk c))
    (hfell : ∀ k o, P (.fell k o) → (o.status = .matched ∧ Q (.next { o with qty := count }))) :
    Costs (Trace.iteration none te ps bottom count c) B Q := by
  unfold Trace.iteration
  refine Costs.bind (B' := 0) h fun r hr => ?_
  cases r with
  | ret o e => exact costs_pure (hret o e hr)
  | unmatched => exact costs_pure (hun hr)
  | fell k o =>
    simp only
    split
    next hk => obtain ⟨h1, -, rfl⟩ := hk; exact costs_pure (hbrk o (by simpa using h1) hr)
    next =>
      refine Costs.bind (B := 0) (B' := 0) (P := fun r => r = ({ o with qty := count }, none)) (costs_lift fun a ha => by cases ha; rfl) ?_
      rintro _ rfl
      obtain ⟨h1, h2⟩ := hfell k o hr
      simp only [h1]
      exact costs_pure (by rw [← h1]; exact h2)

theorem costs_once {body : Nat → Ctx → M IterEnd} {c : Ctx} {P : IterEnd → Prop} (h : Costs (body 0 c) B P) :
    Costs (Trace.parentLoop false body 1 0 c) B fun _ => True := by
  unfold Trace.parentLoop
  refine Costs.bind (B' := 0) h fun r _ => ?_
  cases r with
  | ret o e => exact costs_pure trivial
  | brk o => exact costs_pure trivial
  | next o => exact costs_pure trivial

end

/-! ### Expressions -/

section
variable {rules : Nat → Pex} {i : Info} {n : Nat}

theorem tried_ford {p : Pex} {t : List Char} {o : Option (List Char)} {k : Nat} (h : Pex.Tried rules p t o k) : Ford (fun i => (rules i).peg) p.peg t o := by
  induction h with
  | eps => exact .eps
  | chr h => exact .chr h
  | chrNot h => exact .chrNot h
  | chrEnd => exact .chrEnd
  | seq _ _ h1 h2 => exact .seq h1 h2
  | seqFail _ h => exact .seqFail h
  | altLeft _ h => exact .altLeft h
  | altRight _ _ h1 h2 => exact .altRight h1 h2
  | starEnd _ h => exact .starEnd h
  | starMore _ _ h1 h2 => exact .starMore h1 h2
  | notYes _ h => exact .notYes h
  | notNo _ h => exact .notNo h
  | var _ h => exact .var h

theorem Spec.Pex.Tried.pos {p : Pex} {t : List Char} {o : Option (List Char)} {k : Nat} (h : Pex.Tried rules p t o k) : 1 ≤ k := by
  cases h <;> omega

theorem tried_of_aux {rules' : Nat → Peg} {e : Peg} {t : List Char} {o : Option (List Char)} (hr : rules' = fun i => (rules i).peg) (h : Ford rules' e t o) :
    ∀ p : Pex, e = p.peg → ∃ k, Pex.Tried rules p t o k := by
  subst hr
  induction h with
  | eps => intro p hp; cases p <;> simp [Pex.peg] at hp; exact ⟨_, .eps⟩
  | chr h => intro p hp; cases p <;> simp [Pex.peg] at hp; subst hp; exact ⟨_, .chr h⟩
  | chrNot h => intro p hp; cases p <;> simp [Pex.peg] at hp; subst hp; exact ⟨_, .chrNot h⟩
  | chrEnd => intro p hp; cases p <;> simp [Pex.peg] at hp; subst hp; exact ⟨_, .chrEnd⟩
  | seq _ _ h1 h2 =>
    intro p hp; cases p <;> simp [Pex.peg] at hp
    obtain ⟨k, h1⟩ := h1 _ hp.1; obtain ⟨k', h2⟩ := h2 _ hp.2; exact ⟨_, .seq h1 h2⟩
  | seqFail _ h => intro p hp; cases p <;> simp [Pex.peg] at hp; obtain ⟨k, h⟩ := h _ hp.1; exact ⟨_, .seqFail h⟩
  | altLeft _ h => intro p hp; cases p <;> simp [Pex.peg] at hp; obtain ⟨k, h⟩ := h _ hp.1; exact ⟨_, .altLeft h⟩
  | altRight _ _ h1 h2 =>
    intro p hp; cases p <;> simp [Pex.peg] at hp
    obtain ⟨k, h1⟩ := h1 _ hp.1; obtain ⟨k', h2⟩ := h2 _ hp.2; exact ⟨_, .altRight h1 h2⟩
  | starEnd _ h => intro p hp; cases p <;> simp [Pex.peg] at hp; obtain ⟨k, h⟩ := h _ hp; exact ⟨_, .starEnd h⟩
  | starMore _ _ h1 h2 =>
    intro p hp
    cases p with
    | star a =>
      obtain ⟨k, h1⟩ := h1 a (by simpa [Pex.peg] using hp); obtain ⟨k', h2⟩ := h2 (.star a) hp
      have := h2.pos
      obtain ⟨k', rfl⟩ : ∃ m, k' = 1 + m := ⟨k' - 1, by omega⟩
      exact ⟨_, .starMore h1 h2⟩
    | _ => simp [Pex.peg] at hp
  | notYes _ h => intro p hp; cases p <;> simp [Pex.peg] at hp; obtain ⟨k, h⟩ := h _ hp; exact ⟨_, .notYes h⟩
  | notNo _ h => intro p hp; cases p <;> simp [Pex.peg] at hp; obtain ⟨k, h⟩ := h _ hp; exact ⟨_, .notNo h⟩
  | var _ h =>
    intro p hp; cases p <;> simp [Pex.peg] at hp
    subst hp
    obtain ⟨k, h⟩ := h _ rfl; exact ⟨_, .var h⟩

/-- The parser is called as often as expressions are tried, and ends as the expression does. -/
def CostsLike (rules : Nat → Pex) (p : Trace.Parser) (e : Pex) : Prop :=
  ∀ c t o k, AtText c t → Pex.Tried rules e t o k → Costs (p c) k fun r => Spec.Agrees (fun _ => True) c t (Outcome.of (.ok r)) o

/-- Two parsers in sequence. -/
theorem costs_two {x y : Trace.Parser} {a b : Pex} (hx : CostsLike rules x a) (hy : CostsLike rules y b) {c : Ctx} {t : List Char} {o : Option (List Char)}
    {k j : Nat} (hc : AtText c t) (h : Pex.Tried rules (.seq a b) t o (1 + k)) : Costs (Trace.childLoop false [x, y] j c) k (SeqEnd (fun _ => True) c t o) := by
  rw [Trace.childLoop]
  generalize hk : 1 + k = k0 at h
  cases h with
  | @seq _ _ _ u _ k1 k2 t1 t2 =>
    refine Costs.mono (B := k1 + (k2 + 0)) ?_ (by omega) fun _ h => h
    refine (hx c t _ _ hc t1).bind fun r hr => ?_
    obtain ⟨o', err⟩ := r
    rcases agrees_ok hr with ⟨rfl, hs, v, hv, hwent⟩ | ⟨_, _, hn⟩
    · cases hv
      have hfix : fixStatus o' none = o' := by simp [fixStatus]
      simp only [hfix, hs, Bool.false_eq_true, if_false]
      rw [Trace.childLoop]
      refine (hy o' u _ _ (hc.went hwent) t2).bind fun r hr => ?_
      obtain ⟨o2, err⟩ := r
      have hfix2 : fixStatus o2 none = o2 := by simp [fixStatus]
      rcases agrees_ok hr with ⟨rfl, hs, v, hv, hwent2⟩ | ⟨rfl, hs, hn⟩
      · simp only [hfix2, hs, Bool.false_eq_true, if_false]
        exact costs_pure (P := SeqEnd (fun _ => True) c t o) ⟨v, hv, hwent.trans hwent2⟩
      · simp only [hfix2, hs, Bool.false_eq_true, if_false]
        exact costs_pure (P := SeqEnd (fun _ => True) c t o) hn
    · cases hn
  | @seqFail _ _ _ k1 t1 =>
    refine Costs.mono (B := k1 + 0) ?_ (by omega) fun _ h => h
    refine (hx c t _ _ hc t1).bind fun r hr => ?_
    obtain ⟨o', err⟩ := r
    have hfix : fixStatus o' none = o' := by simp [fixStatus]
    rcases agrees_ok hr with ⟨_, _, v, hv, _⟩ | ⟨rfl, hs, _⟩
    · cases hv
    · simp only [hfix, hs, Bool.false_eq_true, if_false]
      exact costs_pure (P := SeqEnd (fun _ => True) c t none) rfl

/-- One parser in a sequence. -/
theorem costs_one {x : Trace.Parser} {a : Pex} (hx : CostsLike rules x a) {c : Ctx} {t : List Char} {o : Option (List Char)}
    {k j : Nat} (hc : AtText c t) (h : Pex.Tried rules a t o k) : Costs (Trace.childLoop false [x] j c) k (SeqEnd (fun _ => True) c t o) := by
  rw [Trace.childLoop]
  refine Costs.mono (B := k + 0) ?_ (by omega) fun _ h => h
  refine (hx c t _ _ hc h).bind fun r hr => ?_
  obtain ⟨o', err⟩ := r
  have hfix : fixStatus o' none = o' := by simp [fixStatus]
  rcases agrees_ok hr with ⟨rfl, hs, v, hv, hw⟩ | ⟨rfl, hs, hn⟩
  · simp only [hfix, hs, Bool.false_eq_true, if_false]
    exact costs_pure (P := SeqEnd (fun _ => True) c t o) ⟨v, hv, hw⟩
  · simp only [hfix, hs, Bool.false_eq_true, if_false]
    exact costs_pure (P := SeqEnd (fun _ => True) c t o) hn

/-- Two alternatives. -/
theorem costs_alts {x y : Trace.Parser} {a b : Pex} (hx : CostsLike rules x a) (hy : CostsLike rules y b) {c : Ctx} {t : List Char} {o : Option (List Char)}
    {k j : Nat} (hc : AtText c t) (h : Pex.Tried rules (.alt a b) t o (1 + k)) :
    Costs (Trace.childLoop true [x, y] j c) k fun r => ∃ k o', r = .fell k o' ∧ o'.status = .matched := by
  rw [Trace.childLoop]
  generalize hk : 1 + k = k0 at h
  cases h with
  | @altLeft _ _ _ u k1 t1 =>
    refine Costs.mono (B := k1 + 0) ?_ (by omega) fun _ h => h
    refine (hx c t _ _ hc t1).bind fun r hr => ?_
    obtain ⟨o', err⟩ := r
    have hfix : fixStatus o' none = o' := by simp [fixStatus]
    rcases agrees_ok hr with ⟨rfl, hs, v, hv, _⟩ | ⟨rfl, hs, hn⟩
    · simp only [hfix, hs, if_true]
      exact costs_pure ⟨_, _, rfl, hs⟩
    · cases hn
  | @altRight _ _ _ _ k1 k2 t1 t2 =>
    refine Costs.mono (B := k1 + (k2 + 0)) ?_ (by omega) fun _ h => h
    refine (hx c t _ _ hc t1).bind fun r hr => ?_
    obtain ⟨o', err⟩ := r
    have hfix : fixStatus o' none = o' := by simp [fixStatus]
    rcases agrees_ok hr with ⟨_, _, v, hv, _⟩ | ⟨rfl, hs, _⟩
    · cases hv
    · simp only [hfix, hs, if_true]
      rw [Trace.childLoop]
      refine (hy c t _ _ hc t2).bind fun r hr => ?_
      obtain ⟨o2, err⟩ := r
      have hfix2 : fixStatus o2 none = o2 := by simp [fixStatus]
      rcases agrees_ok hr with ⟨rfl, hs, v, hv, _⟩ | ⟨rfl, hs, hn⟩
      · simp only [hfix2, hs, if_true]
        exact costs_pure ⟨_, _, rfl, hs⟩
      · simp only [hfix2, hs, if_true]
        rw [Trace.childLoop]
        exact costs_pure ⟨_, _, rfl, hc.1.2⟩

theorem costs_iter {ps : List Trace.Parser} {bottom count k : Nat} {c : Ctx} {t : List Char} {o : Option (List Char)}
    (h : Costs (Trace.childLoop false ps 0 c) k (SeqEnd (fun _ => True) c t o)) :
    Costs (Trace.iteration none false ps bottom count c) k (IterLike (fun _ => True) c t o) := by
  refine costs_iteration h (fun _ _ h => h) (fun h => h) (fun _ h => by cases h) fun k o' h => ?_
  obtain ⟨v, hv, hw⟩ := h
  exact ⟨hw.ok, v, hv, hw.congr rfl rfl rfl rfl rfl rfl rfl rfl rfl rfl rfl⟩

theorem costs_star {x : Trace.Parser} {a : Pex} (hx : CostsLike rules x a) (bottom fuel : Nat) : ∀ (count : Nat) (c : Ctx) (t : List Char) (o : Option (List Char)) (k : Nat),
    AtText c t → Pex.Tried rules (.star a) t o (1 + k) → Costs (Trace.parentLoop true (Trace.iteration none false [x] bottom) fuel count c) k fun _ => True := by
  induction fuel with
  | zero => intro count c t o k _ _ s a h; unfold Trace.parentLoop at h; cases h
  | succ fuel ih =>
    intro count c t o k hc h
    rw [Trace.parentLoop]
    generalize hk : 1 + k = k0 at h
    cases h with
    | @starEnd _ _ k1 t1 =>
      refine Costs.mono (B := k1 + 0) ?_ (by omega) fun _ h => h
      refine (costs_iter (costs_one hx hc t1)).bind fun r hr => ?_
      cases r with
      | ret o e => exact costs_pure trivial
      | brk o => exact costs_pure trivial
      | next c' => obtain ⟨v, hv, _⟩ := hr; cases hv
    | @starMore _ _ u _ k1 k2 t1 t2 =>
      refine Costs.mono (B := k1 + k2) ?_ (by omega) fun _ h => h
      refine (costs_iter (costs_one hx hc t1)).bind fun r hr => ?_
      cases r with
      | ret o e => exact hr.elim
      | brk o => cases hr
      | next c' =>
        obtain ⟨v, hv, hw⟩ := hr
        cases hv
        exact ih _ c' u o k2 (hc.went hw) t2

theorem costs_run (i : Info) (n : Nat) : ∀ p : Pex, CostsLike rules ((p.gram.traced i).run (fun name _ => (rules name).gram.traced i) n) p := by
  induction n with
  | zero => intro p c t o k _ _ s a h; unfold TGram.run at h; cases h
  | succ n IH =>
    intro p c t o k hc hk
    suffices h : Costs ((p.gram.traced i).run (fun name _ => (rules name).gram.traced i) (n + 1) c) k fun _ => True by
      intro s r hr
      refine ⟨(h s r hr).1, ?_⟩
      rw [C43_transparent _ (fun name => (rules name).gram) (fun _ _ => plain_traced _ _), plain_traced] at hr
      obtain ⟨o', h1, h2⟩ := C74_engine_to_peg (A := fun _ => True) (rules := fun i => (rules i).peg.pad) (fun _ _ _ _ => trivial) (fun _ => pex_means _) (pex_means p) hc.1 hc.2 (n + 1) (by rw [hr]; simp)
      rw [hr] at h2
      rw [ford_unique (tried_ford hk) (ford_unpad.1 h1)]
      exact h2
    cases p with
    | eps =>
      cases hk
      simp only [Pex.gram, Gram.traced]; unfold TGram.run
      exact costs_wrap i (B := 0) (costs_lift fun _ _ => trivial)
    | chr f =>
      have : k = 1 := by cases hk <;> rfl
      subst this
      simp only [Pex.gram, Gram.traced]; unfold TGram.run
      exact costs_wrap i (B := 0) (costs_lift fun _ _ => trivial)
    | seq a b =>
      obtain ⟨k, rfl⟩ : ∃ m, k = 1 + m := ⟨k - 1, by have := hk.pos; omega⟩
      simp only [Pex.gram, Gram.traced, tracedList]; unfold TGram.run
      exact costs_wrap i (costs_base (costs_once (costs_iter (costs_two (IH a) (IH b) (c := { c with cls := _, status := .matched }) ⟨⟨hc.1.1, rfl⟩, hc.2⟩ hk))))
    | alt a b =>
      obtain ⟨k, rfl⟩ : ∃ m, k = 1 + m := ⟨k - 1, by have := hk.pos; omega⟩
      simp only [Pex.gram, Gram.traced, tracedList]; unfold TGram.run
      refine costs_wrap i (costs_base (costs_once (costs_iteration (Q := fun _ => True) (costs_alts (IH a) (IH b) (c := { c with cls := _, status := .matched }) ⟨⟨hc.1.1, rfl⟩, hc.2⟩ hk) ?_ ?_ ?_ ?_)))
      · exact fun _ _ _ => trivial
      · exact fun _ => trivial
      · exact fun _ _ _ => trivial
      · exact fun k o ⟨_, _, h1, h2⟩ => by cases h1; exact ⟨h2, trivial⟩
    | star a =>
      obtain ⟨k, rfl⟩ : ∃ m, k = 1 + m := ⟨k - 1, by have := hk.pos; omega⟩
      simp only [Pex.gram, Gram.traced, tracedList]; unfold TGram.run
      exact costs_wrap i (costs_base (costs_star (IH a) _ n 0 { c with cls := _, status := .matched } t o k ⟨⟨hc.1.1, rfl⟩, hc.2⟩ hk))
    | notP a =>
      have h1 : ∃ o k', k = 1 + k' ∧ Pex.Tried rules a t o k' := by cases hk with
        | notYes h => exact ⟨_, _, rfl, h⟩
        | notNo h => exact ⟨_, _, rfl, h⟩
      obtain ⟨o', k', rfl, h1⟩ := h1
      simp only [Pex.gram, Gram.traced, tracedList]; unfold TGram.run
      exact costs_wrap i (costs_base (costs_once (costs_iter (costs_one (IH a) (c := { c with cls := _, status := .matched }) ⟨⟨hc.1.1, rfl⟩, hc.2⟩ h1))))
    | var j =>
      cases hk with
      | @var _ _ _ k hk =>
      simp only [Pex.gram, Gram.traced]; unfold TGram.run
      refine costs_wrap i (B := k) ?_
      unfold light
      refine Costs.mono (B := k + 0) ?_ (by omega) fun _ h => h
      refine Costs.bind (P := fun _ => True) ?_ fun r _ => costs_pure trivial
      intro s r hr
      exact ⟨(IH (rules j) c t o k hc hk { s with clock := s.clock + 1 } r hr).1, trivial⟩

end
end Takenoco
