import Verif.Lemmas.Ledger
/-
The parser calls of `ProductionRule`.
-/
namespace Takenoco
open Spec Trace

theorem Bill.upper {α : Type} {x : M α} {R : Out α → Nat → Prop} (h : Bill x R) {B : Nat} {P : α → Prop} (hB : ∀ o k, R o k → k ≤ B)
    (hP : ∀ a k, R (.ok a) k → P a) : Upper x B P := by
  intro s
  obtain ⟨k, h1, h2⟩ := h s
  exact ⟨by have := hB _ _ h2; omega, fun a ha => hP a k (by rw [← ha]; exact h2)⟩

theorem Upper.bill {α : Type} {x : M α} {B : Nat} {P : α → Prop} (h : Upper x B P) : Bill x fun o k => k ≤ B ∧ ∀ a, o = .ok a → P a := fun s =>
  ⟨B, (h s).1, Nat.le_refl _, (h s).2⟩

/-- The ASTs as a source. -/
def astSource (asts : List Ast) : LedSource := ⟨[], some (astSliceSrc asts), asts.length⟩

/-- A rule needs at most `K` calls, and puts fewer ASTs than it takes. -/
def ruleB (K : Nat) : Bounds where
  hit x s y t k := k ≤ K ∧ t + x + 1 ≤ s + y
  miss _ k := k ≤ K
  stop _ k := k ≤ K
  zero _ := Nat.zero_le _

/-- The parser is such a rule, on all ASTs. -/
def RuleP (K : Nat) (p : Trace.Parser) : Prop := ∀ asts, Led (astSource asts) (ruleB K) p

/-- The search makes the list shorter. -/
def Shorter (l : Nat) : Search → Prop
  | .rewritten l' => l'.length + 1 ≤ l
  | _ => True

theorem upper_rule {K : Nat} {p : Trace.Parser} (h : RuleP K p) (asts : List Ast) (c : Ctx) (hc : AtSrc (astSource asts) c) :
    Upper (p c) K fun r => r.2 = none → r.1.status = .matched → r.1.pos ≤ asts.length ∧ r.1.stack.length + c.pos + 1 ≤ c.stack.length + r.1.pos := by
  refine (h asts c hc).upper ?_ ?_
  · intro o k hr
    rcases o with ⟨o, _ | e⟩ | _ | _
    · simp only [ResIn] at hr
      split at hr
      · exact hr.2.1
      · exact hr
      · exact hr
    all_goals exact hr
  · rintro ⟨o, e⟩ k hr rfl ho
    simp only at ho
    simp only [ResIn, ho] at hr
    exact ⟨hr.1.2.2.2, hr.2.2⟩

theorem upper_tryRules {K : Nat} {rules : List Trace.Parser} (h : ∀ p, p ∈ rules → RuleP K p) (asts : List Ast) (tag : Value) (p : Nat) (hp : p ≤ asts.length) :
    Upper (Trace.tryRules (newObjCtx (astSliceSrc asts) tag) asts p rules) (rules.length * K) (Shorter asts.length) := by
  induction rules with
  | nil => exact upper_pure trivial
  | cons r rules ih =>
    rw [Trace.tryRules]
    refine ((upper_rule (h r (by simp)) asts { newObjCtx (astSliceSrc asts) tag with pos := p } ⟨rfl, rfl, rfl, hp⟩).bind
      (B' := rules.length * K) (Q := Shorter asts.length) ?_).mono (by rw [List.length_cons, Nat.succ_mul]; omega) fun _ h => h
    rintro ⟨o, e⟩ hr
    cases e with
    | some e => exact upper_pure trivial
    | none =>
      simp only
      split
      · exact ih fun p hp => h p (by simp [hp])
      · rename_i hm
        have hm : o.status = .matched := Decidable.of_not_not hm
        obtain ⟨h1, h2⟩ := hr rfl hm
        simp only [newObjCtx, List.length_nil] at h1 h2
        rw [if_neg (by omega)]
        refine upper_pure ?_
        simp only [Shorter, List.length_append, List.length_take, List.length_drop]
        omega

theorem upper_tryPositions {K : Nat} {rules : List Trace.Parser} (h : ∀ p, p ∈ rules → RuleP K p) (asts : List Ast) (tag : Value) (rtol : Bool) :
    ∀ k i, i + k ≤ asts.length + 1 → Upper (Trace.tryPositions (newObjCtx (astSliceSrc asts) tag) asts rules rtol k i) (k * (rules.length * K)) (Shorter asts.length) := by
  intro k
  induction k with
  | zero => intro i _; exact upper_pure trivial
  | succ k ih =>
    intro i hi
    rw [Trace.tryPositions]
    refine ((upper_tryRules h asts tag (if rtol then asts.length - i else i) (by split <;> omega)).bind (B' := k * (rules.length * K))
      (Q := Shorter asts.length) ?_).mono (by rw [Nat.succ_mul]; omega) fun _ h => h
    intro r hr
    cases r with
    | noMatch => exact ih (i + 1) (by omega)
    | err e => exact upper_pure trivial
    | rewritten l => exact upper_pure hr

/-- The rules of all precedences together. -/
def ruleCount {α : Type} (precs : List (List α × Bool)) : Nat := (precs.map fun p => p.1.length).sum

theorem upper_tryPrecedences {K : Nat} {precs : List (List Trace.Parser × Bool)} (h : ∀ q, q ∈ precs → ∀ p, p ∈ q.1 → RuleP K p) (asts : List Ast) (tag : Value) :
    Upper (Trace.tryPrecedences tag asts precs) ((asts.length + 1) * (ruleCount precs * K)) (Shorter asts.length) := by
  induction precs with
  | nil => exact upper_pure trivial
  | cons q precs ih =>
    obtain ⟨rules, rtol⟩ := q
    rw [Trace.tryPrecedences]
    refine ((upper_tryPositions (h (rules, rtol) (by simp)) asts tag rtol (asts.length + 1) 0 (by omega)).bind (Q := Shorter asts.length) ?_).mono
      (B := (asts.length + 1) * (rules.length * K) + (asts.length + 1) * (ruleCount precs * K)) ?_ fun _ h => h
    · intro r hr
      cases r with
      | noMatch => exact ih fun q hq => h q (by simp [hq])
      | err e => exact upper_pure trivial
      | rewritten l => exact upper_pure hr
    · rw [← Nat.mul_add, ← Nat.add_mul]
      exact Nat.le_of_eq (by simp [ruleCount])

/-- A check needs at most `C` calls, and holds of single ASTs only. -/
def CheckP (C : Nat) (p : Trace.Parser) : Prop := ∀ tag asts, Upper (Trace.checkHolds p tag asts) C fun b => b = true → asts.length = 1

theorem upper_production {K C : Nat} {precs : List (List Trace.Parser × Bool)} (h : ∀ q, q ∈ precs → ∀ p, p ∈ q.1 → RuleP K p) {check : Trace.Parser}
    (hc : CheckP C check) (tag : Value) : ∀ n asts, Upper (Trace.productionLoop precs check tag n asts)
      ((asts.length + 1) * ((asts.length + 1) * (ruleCount precs * K) + C)) fun r => r.2 = none → r.1.length = 1 := by
  intro n
  induction n with
  | zero => intro asts; exact upper_lift (by simp)
  | succ n ih =>
    intro asts
    rw [Trace.productionLoop]
    refine ((upper_tryPrecedences h asts tag).bind (B' := C + asts.length * ((asts.length + 1) * (ruleCount precs * K) + C))
      (Q := fun r => r.2 = none → r.1.length = 1) ?_).mono (by generalize (asts.length + 1) * (ruleCount precs * K) = D; rw [Nat.succ_mul]; omega) fun _ h => h
    intro r hr
    cases r with
    | err e => exact upper_pure (by simp)
    | noMatch =>
      refine (hc tag asts).bind fun b hb => ?_
      split
      · rename_i h; exact upper_pure fun _ => hb h
      · exact upper_pure (by simp)
    | rewritten l =>
      refine (hc tag l).bind fun b hb => ?_
      split
      · rename_i h; exact upper_pure fun _ => hb h
      · refine (ih l).mono ?_ fun _ h => h
        have hl : l.length + 1 ≤ asts.length := hr
        exact Nat.mul_le_mul hl (Nat.add_le_add (Nat.mul_le_mul_right _ (by omega)) (Nat.le_refl _))

variable {tenv : TEnv} {N : Nat}

theorem plainPrecs_mem : ∀ {ps : List (List TGram × Bool)} {qs : List (List Gram × Bool)}, plainPrecs ps = qs →
    (∀ p, p ∈ ps → ∃ q, q ∈ qs ∧ plainList p.1 = q.1) ∧ (ps.map fun p => p.1.length) = qs.map fun q => q.1.length
  | [], _, h => by subst h; simp [plainPrecs]
  | p :: ps, _, h => by
    subst h
    obtain ⟨gs, r⟩ := p
    have ih := plainPrecs_mem (ps := ps) rfl
    have hlen : ∀ l : List TGram, (plainList l).length = l.length := by
      intro l; induction l with
      | nil => rfl
      | cons g l ih => simp [plainList, ih]
    constructor
    · intro p hp
      rcases List.mem_cons.1 hp with rfl | hp
      · exact ⟨_, by simp only [plainPrecs]; exact List.mem_cons_self, rfl⟩
      · obtain ⟨q, h1, h2⟩ := ih.1 p hp
        exact ⟨q, by simp only [plainPrecs]; exact List.mem_cons_of_mem _ h1, h2⟩
    · simp only [plainPrecs, List.map_cons, plainPrec, hlen, ih.2]

theorem mem_plainList {gs : List TGram} {g : TGram} (h : g ∈ gs) : g.plain ∈ plainList gs := by
  induction gs with
  | nil => cases h
  | cons g' gs ih =>
    rcases List.mem_cons.1 h with rfl | h
    · simp [plainList]
    · simp [plainList, ih h]

theorem ledTr_production {K C : Nat} {precs : List (List Gram × Bool)} {check : Gram}
    (hr : ∀ q, q ∈ precs → ∀ g, g ∈ q.1 → ∀ asts, LedG (astSource asts) tenv N (ruleB K) g)
    (hc : ∀ m, m < N → ∀ tg : TGram, tg.plain = check → CheckP C (tg.run tenv m)) :
    LedTr tenv N (fun l q k => q = 1 ∧ k ≤ (l + 1) * ((l + 1) * (ruleCount precs * K) + C)) (fun l k => k ≤ (l + 1) * ((l + 1) * (ruleCount precs * K) + C))
      [.production precs check] := by
  intro m hm trs htrs c l
  match trs, htrs with
  | [.production ps ch], h =>
    simp only [plainTrs, TTr.plain, List.cons.injEq, Tr.production.injEq, and_true] at h
    obtain ⟨h1, h2⟩ := h
    have key : ∀ c l, Upper (TTr.run tenv m (.production ps ch) c l) ((l.length + 1) * ((l.length + 1) * (ruleCount precs * K) + C)) fun r => r.2 = none → r.1.length = 1 := by
      intro c l
      cases m with
      | zero => exact upper_lift (by simp)
      | succ m =>
        obtain ⟨h3, h4⟩ := plainPrecs_mem h1
        have hcount : ruleCount precs = ruleCount (ps.map fun p => (p.1.map (TGram.run tenv m), p.2)) := by
          unfold ruleCount
          rw [← h4, List.map_map]
          congr 1
          exact List.map_congr_left fun p _ => by simp
        rw [hcount]
        refine upper_production ?_ (hc m (by omega) ch h2) c.tag m l
        intro q hq p hp asts
        obtain ⟨q', hq', rfl⟩ := List.mem_map.1 hq
        obtain ⟨tg, htg, rfl⟩ := List.mem_map.1 hp
        obtain ⟨q, hq1, hq2⟩ := h3 q' hq'
        exact hr q hq1 tg.plain (by rw [← hq2]; exact mem_plainList htg) asts m (by omega) tg rfl
    simp only [List.map_cons, List.map_nil, Trace.applyTrs]
    refine (key c l).bill.bind ?_ (fun p k h => h.1) (fun k h => h.1)
    rintro ⟨l', e⟩ k ⟨h5, h6⟩
    cases e with
    | some e => exact bill_pure h5
    | none => exact bill_pure ⟨h6 _ rfl rfl, h5⟩
  | [], h => simp [plainTrs] at h
  | [.fn _], h => simp [plainTrs, TTr.plain] at h
  | _ :: _ :: _, h => simp [plainTrs] at h

end Takenoco
