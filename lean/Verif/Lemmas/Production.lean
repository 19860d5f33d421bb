import Verif.Spec.Production
import Verif.Model.Production
/-
The loops of ProductionRule against the specification.
-/
namespace Takenoco
open Spec

/-- A search result as an outcome of one step. -/
def Search.toExcept : Search → Option (Except Err (List Ast))
  | .noMatch => none
  | .rewritten l => some (.ok l)
  | .err e => some (.error e)

theorem overAsts_eq (tag : Value) (asts : List Ast) (p : Nat) :
    { newObjCtx (astSliceSrc asts) tag with pos := p } = overAsts tag asts p := rfl

theorem inapp_cons {r : Sem} {rs : List Sem} {tag : Value} {asts : List Ast} {p : Nat} {o : Ctx}
    (h : r (overAsts tag asts p) = .ok (o, none)) (ho : o.status ≠ .matched) (hr : Inapplicable rs tag asts p) :
    Inapplicable (r :: rs) tag asts p := by
  intro x hx
  rcases List.mem_cons.1 hx with rfl | hx
  · exact ⟨o, h, ho⟩
  · exact hr x hx

theorem Spec.AppliesAt.cons {r : Sem} {rs : List Sem} {tag : Value} {asts : List Ast} {p : Nat} {o : Ctx} {x : Except Err (List Ast)}
    (h : r (overAsts tag asts p) = .ok (o, none)) (ho : o.status ≠ .matched) (hr : AppliesAt rs tag asts p x) :
    AppliesAt (r :: rs) tag asts p x := by
  cases hr with
  | rewrite h1 h2 h3 h4 h5 => subst h1; exact .rewrite (pre := r :: _) rfl (inapp_cons h ho h2) h3 h4 h5
  | fail h1 h2 h3 => subst h1; exact .fail (pre := r :: _) rfl (inapp_cons h ho h2) h3

theorem tryRules_iff (tag : Value) (asts : List Ast) (p : Nat) (rules : List Sem) (s : Search) :
    tryRules (newObjCtx (astSliceSrc asts) tag) asts p rules = .ok s ↔
      match s.toExcept with
      | none => Inapplicable rules tag asts p
      | some r => AppliesAt rules tag asts p r := by
  induction rules with
  | nil =>
    unfold tryRules
    cases s with
    | noMatch => exact ⟨fun _ => (by intro r hr; cases hr), fun _ => rfl⟩
    | rewritten l =>
      refine ⟨fun h => (by cases h), fun h => ?_⟩
      cases h with
      | rewrite h1 => simp at h1
    | err e =>
      refine ⟨fun h => (by cases h), fun h => ?_⟩
      cases h with
      | fail h1 => simp at h1
  | cons r rs ih =>
    unfold tryRules
    rw [overAsts_eq]
    have inv_none : Inapplicable (r :: rs) tag asts p →
        ∃ o, r (overAsts tag asts p) = .ok (o, none) ∧ o.status ≠ .matched ∧ Inapplicable rs tag asts p := fun h => by
      obtain ⟨o, h1, h2⟩ := h r (by simp)
      exact ⟨o, h1, h2, fun x hx => h x (by simp [hx])⟩
    have inv_some : ∀ x, AppliesAt (r :: rs) tag asts p x →
        (∃ o, r (overAsts tag asts p) = .ok (o, none) ∧ o.status = .matched ∧ o.pos ≤ asts.length ∧
          x = .ok (asts.take p ++ o.stack ++ asts.drop o.pos)) ∨
        (∃ o e, r (overAsts tag asts p) = .ok (o, some e) ∧ x = .error e) ∨
        (∃ o, r (overAsts tag asts p) = .ok (o, none) ∧ o.status ≠ .matched ∧ AppliesAt rs tag asts p x) := by
      intro x h
      cases h with
      | @rewrite pre post r' o h1 h2 h3 h4 h5 =>
        cases pre with
        | nil => cases h1; exact .inl ⟨_, h3, h4, h5, rfl⟩
        | cons y ys =>
          rw [List.cons_append] at h1
          cases h1
          obtain ⟨o', h6, h7⟩ := h2 r (by simp)
          exact .inr (.inr ⟨o', h6, h7, .rewrite rfl (fun z hz => h2 z (by simp [hz])) h3 h4 h5⟩)
      | @fail pre post r' o e h1 h2 h3 =>
        cases pre with
        | nil => cases h1; exact .inr (.inl ⟨_, _, h3, rfl⟩)
        | cons y ys =>
          rw [List.cons_append] at h1
          cases h1
          obtain ⟨o', h6, h7⟩ := h2 r (by simp)
          exact .inr (.inr ⟨o', h6, h7, .fail rfl (fun z hz => h2 z (by simp [hz])) h3⟩)
    cases hr : r (overAsts tag asts p) with
    | panic x =>
      refine ⟨fun h => (by cases h), fun h => ?_⟩
      cases hs : s.toExcept with
      | none => rw [hs] at h; obtain ⟨o, h1, _⟩ := inv_none h; rw [hr] at h1; cases h1
      | some x =>
        rw [hs] at h
        rcases inv_some x h with ⟨o, h1, _⟩ | ⟨o, e, h1, _⟩ | ⟨o, h1, _⟩ <;> rw [hr] at h1 <;> cases h1
    | timeout =>
      refine ⟨fun h => (by cases h), fun h => ?_⟩
      cases hs : s.toExcept with
      | none => rw [hs] at h; obtain ⟨o, h1, _⟩ := inv_none h; rw [hr] at h1; cases h1
      | some x =>
        rw [hs] at h
        rcases inv_some x h with ⟨o, h1, _⟩ | ⟨o, e, h1, _⟩ | ⟨o, h1, _⟩ <;> rw [hr] at h1 <;> cases h1
    | ok res =>
      obtain ⟨o, e⟩ := res
      cases e with
      | some e =>
        simp only
        constructor
        · intro h; cases h; exact .fail (pre := []) rfl (fun x hx => by cases hx) hr
        · intro h
          cases hs : s.toExcept with
          | none => rw [hs] at h; obtain ⟨o, h1, _⟩ := inv_none h; rw [hr] at h1; cases h1
          | some x =>
            rw [hs] at h
            rcases inv_some x h with ⟨o, h1, _⟩ | ⟨o, e, h1, h2⟩ | ⟨o, h1, _⟩
            · rw [hr] at h1; cases h1
            · rw [hr] at h1; cases h1; subst h2
              cases s <;> cases hs; rfl
            · rw [hr] at h1; cases h1
      | none =>
        simp only
        by_cases ho : o.status = .matched
        · have hno : ¬ o.status ≠ .matched := fun h => h ho
          simp only [hno, if_false]
          by_cases hp : asts.length < o.pos
          · simp only [hp, if_true]
            refine ⟨fun h => (by cases h), fun h => ?_⟩
            cases hs : s.toExcept with
            | none => rw [hs] at h; obtain ⟨o, h1, h2, _⟩ := inv_none h; rw [hr] at h1; cases h1; exact absurd ho h2
            | some x =>
              rw [hs] at h
              rcases inv_some x h with ⟨o, h1, _, h3, _⟩ | ⟨o, e, h1, h2⟩ | ⟨o, h1, h2, _⟩
              · rw [hr] at h1; cases h1; omega
              · rw [hr] at h1; cases h1
              · rw [hr] at h1; cases h1; exact absurd ho h2
          · simp only [hp, if_false]
            constructor
            · intro h; cases h; exact .rewrite (pre := []) rfl (fun x hx => by cases hx) hr ho (by omega)
            · intro h
              cases hs : s.toExcept with
              | none => rw [hs] at h; obtain ⟨o, h1, h2, _⟩ := inv_none h; rw [hr] at h1; cases h1; exact absurd ho h2
              | some x =>
                rw [hs] at h
                rcases inv_some x h with ⟨o, h1, _, h3, h4⟩ | ⟨o, e, h1, h2⟩ | ⟨o, h1, h2, _⟩
                · rw [hr] at h1; cases h1; subst h4
                  cases s <;> cases hs; rfl
                · rw [hr] at h1; cases h1
                · rw [hr] at h1; cases h1; exact absurd ho h2
        · have hno : o.status ≠ .matched := ho
          simp only [hno, if_true, ne_eq, not_false_eq_true]
          rw [ih]
          cases hs : s.toExcept with
          | none =>
            exact ⟨fun h => inapp_cons hr ho h, fun h => by
              obtain ⟨o, _, _, h⟩ := inv_none h; exact h⟩
          | some x =>
            refine ⟨fun h => h.cons hr ho, fun h => ?_⟩
            rcases inv_some x h with ⟨o, h1, h2, _⟩ | ⟨o, e, h1, h2⟩ | ⟨o, h1, h2, h3⟩
            · rw [hr] at h1; cases h1; exact absurd h2 ho
            · rw [hr] at h1; cases h1
            · exact h3

/-- The index visited in iteration `i`. -/
def visited (rtol : Bool) (len i : Nat) : Nat := if rtol then len - i else i

theorem inapplicable_not_applies {rules : List Sem} {tag : Value} {asts : List Ast} {p : Nat} {x : Except Err (List Ast)}
    (h : Inapplicable rules tag asts p) : ¬ AppliesAt rules tag asts p x := by
  intro ha
  cases ha with
  | @rewrite _ _ r _ h1 _ h3 h4 _ =>
    obtain ⟨o, h5, h6⟩ := h r (by rw [h1]; simp)
    rw [h3] at h5; cases h5; exact h6 h4
  | @fail _ _ r _ _ h1 _ h3 =>
    obtain ⟨o, h5, h6⟩ := h r (by rw [h1]; simp)
    rw [h3] at h5; cases h5

theorem tryPositions_iff (tag : Value) (asts : List Ast) (rules : List Sem) (rtol : Bool) (k i : Nat) (s : Search) :
    tryPositions (newObjCtx (astSliceSrc asts) tag) asts rules rtol k i = .ok s ↔
      match s.toExcept with
      | none => ∀ j, i ≤ j → j < i + k → Inapplicable rules tag asts (visited rtol asts.length j)
      | some r => ∃ j, i ≤ j ∧ j < i + k ∧ AppliesAt rules tag asts (visited rtol asts.length j) r ∧
          ∀ j', i ≤ j' → j' < j → Inapplicable rules tag asts (visited rtol asts.length j') := by
  induction k generalizing i with
  | zero =>
    unfold tryPositions
    cases s with
    | noMatch => exact ⟨fun _ j h1 h2 => by omega, fun _ => rfl⟩
    | rewritten l => exact ⟨fun h => (by cases h), fun ⟨j, h1, h2, _⟩ => by omega⟩
    | err l => exact ⟨fun h => (by cases h), fun ⟨j, h1, h2, _⟩ => by omega⟩
  | succ k ih =>
    unfold tryPositions
    have hv : (if rtol = true then asts.length - i else i) = visited rtol asts.length i := rfl
    rw [hv]
    have hx := tryRules_iff tag asts (visited rtol asts.length i) rules
    cases ht : tryRules (newObjCtx (astSliceSrc asts) tag) asts (visited rtol asts.length i) rules with
    | ok s0 =>
      have h0 := (hx s0).1 ht
      cases s0 with
      | noMatch =>
        simp only
        rw [ih]
        have h0 : Inapplicable rules tag asts (visited rtol asts.length i) := h0
        cases hs : s.toExcept with
        | none =>
          constructor
          · intro h j h1 h2
            by_cases hj : j = i
            · rw [hj]; exact h0
            · exact h j (by omega) (by omega)
          · intro h j h1 h2; exact h j (by omega) (by omega)
        | some x =>
          constructor
          · rintro ⟨j, h1, h2, h3, h4⟩
            refine ⟨j, by omega, by omega, h3, fun j' h5 h6 => ?_⟩
            by_cases hj : j' = i
            · rw [hj]; exact h0
            · exact h4 j' (by omega) h6
          · rintro ⟨j, h1, h2, h3, h4⟩
            have : j ≠ i := fun hj => inapplicable_not_applies h0 (hj ▸ h3)
            exact ⟨j, by omega, by omega, h3, fun j' h5 h6 => h4 j' (by omega) h6⟩
      | rewritten l =>
        simp only
        have h0 : AppliesAt rules tag asts (visited rtol asts.length i) (.ok l) := h0
        constructor
        · intro h; cases h; exact ⟨i, by omega, by omega, h0, fun j' _ _ => by omega⟩
        · intro h
          cases hs : s.toExcept with
          | none => rw [hs] at h; exact absurd h0 (inapplicable_not_applies (h i (by omega) (by omega)))
          | some x =>
            rw [hs] at h
            obtain ⟨j, h1, h2, h3, h4⟩ := h
            by_cases hj : j = i
            · subst hj
              have := (hx s).2 (by rw [hs]; exact h3)
              rw [ht] at this; exact this
            · exact absurd h0 (inapplicable_not_applies (h4 i (by omega) (by omega)))
      | err l =>
        simp only
        have h0 : AppliesAt rules tag asts (visited rtol asts.length i) (.error l) := h0
        constructor
        · intro h; cases h; exact ⟨i, by omega, by omega, h0, fun j' _ _ => by omega⟩
        · intro h
          cases hs : s.toExcept with
          | none => rw [hs] at h; exact absurd h0 (inapplicable_not_applies (h i (by omega) (by omega)))
          | some x =>
            rw [hs] at h
            obtain ⟨j, h1, h2, h3, h4⟩ := h
            by_cases hj : j = i
            · subst hj
              have := (hx s).2 (by rw [hs]; exact h3)
              rw [ht] at this; exact this
            · exact absurd h0 (inapplicable_not_applies (h4 i (by omega) (by omega)))
    | panic x =>
      simp only
      refine ⟨fun h => (by cases h), fun h => ?_⟩
      cases hs : s.toExcept with
      | none =>
        rw [hs] at h
        have := (hx .noMatch).2 (h i (by omega) (by omega))
        rw [ht] at this; cases this
      | some x =>
        rw [hs] at h
        obtain ⟨j, h1, h2, h3, h4⟩ := h
        by_cases hj : j = i
        · subst hj
          have := (hx s).2 (by rw [hs]; exact h3)
          rw [ht] at this; cases this
        · have := (hx .noMatch).2 (h4 i (by omega) (by omega))
          rw [ht] at this; cases this
    | timeout =>
      simp only
      refine ⟨fun h => (by cases h), fun h => ?_⟩
      cases hs : s.toExcept with
      | none =>
        rw [hs] at h
        have := (hx .noMatch).2 (h i (by omega) (by omega))
        rw [ht] at this; cases this
      | some x =>
        rw [hs] at h
        obtain ⟨j, h1, h2, h3, h4⟩ := h
        by_cases hj : j = i
        · subst hj
          have := (hx s).2 (by rw [hs]; exact h3)
          rw [ht] at this; cases this
        · have := (hx .noMatch).2 (h4 i (by omega) (by omega))
          rw [ht] at this; cases this

/-- One level: where its rules apply, in the order of the level. -/
theorem tryLevel_iff (tag : Value) (asts : List Ast) (rules : List Sem) (rtol : Bool) (s : Search) :
    tryPositions (newObjCtx (astSliceSrc asts) tag) asts rules rtol (asts.length + 1) 0 = .ok s ↔
      match s.toExcept with
      | none => ∀ p, p ≤ asts.length → Inapplicable rules tag asts p
      | some r => ∃ p, p ≤ asts.length ∧ AppliesAt rules tag asts p r ∧
          ∀ q, q ≤ asts.length → (if rtol then p < q else q < p) → Inapplicable rules tag asts q := by
  rw [tryPositions_iff]
  cases rtol with
  | false =>
    cases s.toExcept with
    | none => exact ⟨fun h p hp => h p (by omega) (by omega), fun h j _ h2 => h j (by omega)⟩
    | some x =>
      constructor
      · rintro ⟨j, h1, h2, h3, h4⟩; exact ⟨j, by omega, h3, fun q _ hq => h4 q (by omega) (by simpa using hq)⟩
      · rintro ⟨p, h1, h2, h3⟩; exact ⟨p, by omega, by omega, h2, fun q _ hq => h3 q (by omega) (by simpa using hq)⟩
  | true =>
    have vis : ∀ p, p ≤ asts.length → visited true asts.length (asts.length - p) = p := fun p hp => by
      unfold visited; simp only [if_true]; omega
    cases s.toExcept with
    | none =>
      constructor
      · intro h p hp
        have := h (asts.length - p) (by omega) (by omega)
        rwa [vis p hp] at this
      · intro h j _ h2; exact h _ (by unfold visited; simp only [if_true]; omega)
    | some x =>
      constructor
      · rintro ⟨j, h1, h2, h3, h4⟩
        refine ⟨_, by unfold visited; simp only [if_true]; omega, h3, fun q hq hlt => ?_⟩
        unfold visited at hlt
        simp only [if_true] at hlt
        have := h4 (asts.length - q) (by omega) (by omega)
        rwa [vis q hq] at this
      · rintro ⟨p, h1, h2, h3⟩
        refine ⟨asts.length - p, by omega, by omega, by rw [vis p h1]; exact h2, fun j' _ hj => h3 _ ?_ ?_⟩
        · unfold visited; simp only [if_true]; omega
        · unfold visited; simp only [if_true]; omega

theorem prodStep_cons {rules : List Sem} {rtol : Bool} {ls : List (List Sem × Bool)} {tag : Value} {asts : List Ast}
    {r : Except Err (List Ast)} :
    ProdStep ((rules, rtol) :: ls) tag asts r ↔
      (∃ p, p ≤ asts.length ∧ AppliesAt rules tag asts p r ∧
          ∀ q, q ≤ asts.length → (if rtol then p < q else q < p) → Inapplicable rules tag asts q) ∨
      ((∀ p, p ≤ asts.length → Inapplicable rules tag asts p) ∧ ProdStep ls tag asts r) := by
  constructor
  · rintro ⟨pre, rules', rtol', post, h1, h2, h3⟩
    cases pre with
    | nil => cases h1; exact .inl h3
    | cons x xs =>
      rw [List.cons_append] at h1
      cases h1
      exact .inr ⟨h2 (rules, rtol) (by simp), xs, rules', rtol', post, rfl, fun l hl => h2 l (by simp [hl]), h3⟩
  · rintro (h | ⟨h1, pre, rules', rtol', post, h2, h3, h4⟩)
    · exact ⟨[], rules, rtol, ls, rfl, fun l hl => (by cases hl), h⟩
    · refine ⟨(rules, rtol) :: pre, rules', rtol', post, by rw [h2]; rfl, fun l hl => ?_, h4⟩
      rcases List.mem_cons.1 hl with rfl | hl
      · exact h1
      · exact h3 l hl

theorem tryPrecedences_iff (tag : Value) (asts : List Ast) (levels : List (List Sem × Bool)) (s : Search) :
    tryPrecedences tag asts levels = .ok s ↔
      match s.toExcept with
      | none => Idle levels tag asts
      | some r => ProdStep levels tag asts r := by
  induction levels with
  | nil =>
    unfold tryPrecedences
    cases s with
    | noMatch => exact ⟨fun _ l hl => (by cases hl), fun _ => rfl⟩
    | rewritten l => exact ⟨fun h => (by cases h), fun ⟨pre, _, _, _, h, _⟩ => (by simp at h)⟩
    | err l => exact ⟨fun h => (by cases h), fun ⟨pre, _, _, _, h, _⟩ => (by simp at h)⟩
  | cons l ls ih =>
    obtain ⟨rules, rtol⟩ := l
    unfold tryPrecedences
    have hx := tryLevel_iff tag asts rules rtol
    have hidle : Idle ((rules, rtol) :: ls) tag asts ↔ (∀ p, p ≤ asts.length → Inapplicable rules tag asts p) ∧ Idle ls tag asts :=
      ⟨fun h => ⟨h (rules, rtol) (by simp), fun l hl => h l (by simp [hl])⟩, fun h l hl => by
        rcases List.mem_cons.1 hl with rfl | hl
        · exact h.1
        · exact h.2 l hl⟩
    cases ht : tryPositions (newObjCtx (astSliceSrc asts) tag) asts rules rtol (asts.length + 1) 0 with
    | ok s0 =>
      have h0 := (hx s0).1 ht
      have decided : ∀ r0, s0.toExcept = some r0 → ((Out.ok s0 = Out.ok s) ↔
          match s.toExcept with
          | none => Idle ((rules, rtol) :: ls) tag asts
          | some r => ProdStep ((rules, rtol) :: ls) tag asts r) := by
        intro r0 hr0
        rw [hr0] at h0
        obtain ⟨p, hp, ha, _⟩ := h0
        constructor
        · intro h; cases h
          rw [hr0]
          exact prodStep_cons.2 (.inl ((hx _).1 ht |> fun h => by rw [hr0] at h; exact h))
        · intro h
          cases hs : s.toExcept with
          | none =>
            rw [hs] at h
            exact absurd ha (inapplicable_not_applies ((hidle.1 h).1 p hp))
          | some x =>
            rw [hs] at h
            rcases prodStep_cons.1 h with h | ⟨h, _⟩
            · have := (hx s).2 (by rw [hs]; exact h)
              rw [ht] at this; exact this
            · exact absurd ha (inapplicable_not_applies (h p hp))
      cases s0 with
      | noMatch =>
        have h0 : ∀ p, p ≤ asts.length → Inapplicable rules tag asts p := h0
        simp only
        rw [ih]
        cases hs : s.toExcept with
        | none => exact ⟨fun h => hidle.2 ⟨h0, h⟩, fun h => (hidle.1 h).2⟩
        | some x =>
          refine ⟨fun h => prodStep_cons.2 (.inr ⟨h0, h⟩), fun h => ?_⟩
          rcases prodStep_cons.1 h with ⟨p, hp, ha, _⟩ | ⟨_, h⟩
          · exact absurd ha (inapplicable_not_applies (h0 p hp))
          · exact h
      | rewritten l => exact decided _ rfl
      | err l => exact decided _ rfl
    | panic x =>
      simp only
      refine ⟨fun h => (by cases h), fun h => ?_⟩
      cases hs : s.toExcept with
      | none =>
        rw [hs] at h
        have := (hx .noMatch).2 (hidle.1 h).1
        rw [ht] at this; cases this
      | some x =>
        rw [hs] at h
        rcases prodStep_cons.1 h with h | ⟨h, _⟩
        · have := (hx s).2 (by rw [hs]; exact h)
          rw [ht] at this; cases this
        · have := (hx .noMatch).2 h
          rw [ht] at this; cases this
    | timeout =>
      simp only
      refine ⟨fun h => (by cases h), fun h => ?_⟩
      cases hs : s.toExcept with
      | none =>
        rw [hs] at h
        have := (hx .noMatch).2 (hidle.1 h).1
        rw [ht] at this; cases this
      | some x =>
        rw [hs] at h
        rcases prodStep_cons.1 h with h | ⟨h, _⟩
        · have := (hx s).2 (by rw [hs]; exact h)
          rw [ht] at this; cases this
        · have := (hx .noMatch).2 h
          rw [ht] at this; cases this

theorem checkHolds_iff (check : Sem) (tag : Value) (asts : List Ast) :
    (checkHolds check tag asts = .ok true ↔ Accepts check tag asts) ∧
    (checkHolds check tag asts = .ok false ↔ Declines check tag asts) := by
  unfold checkHolds Accepts Declines
  have e : newObjCtx (astSliceSrc asts) tag = overAsts tag asts 0 := rfl
  rw [e]
  cases hc : check (overAsts tag asts 0) with
  | panic x => simp
  | timeout => simp
  | ok res =>
    obtain ⟨o, err⟩ := res
    cases err with
    | none =>
      by_cases h : o.status = .matched
      · simp [h]
      · simp only [h]
        exact ⟨⟨fun h => (by cases h), fun ⟨_, h1, h2⟩ => (by cases h1; exact absurd h2 h)⟩,
          fun _ => ⟨o, none, rfl, fun h' => h h'.2⟩, fun _ => rfl⟩
    | some e =>
      exact ⟨⟨fun h => (by cases h), fun ⟨_, h1, h2⟩ => (by cases h1)⟩,
          fun _ => ⟨o, some e, rfl, fun h' => (by cases h'.1)⟩, fun _ => rfl⟩

/-- What the transformer returns for a result of the specification. -/
def exceptOut : Except Err (List Ast) → Out (List Ast × Option Err)
  | .ok l => .ok (l, none)
  | .error e => .ok ([], some e)

theorem productionLoop_of {levels : List (List Sem × Bool)} {check : Sem} {tag : Value} {asts : List Ast}
    {r : Except Err (List Ast)} (h : Produces levels check tag asts r) :
    ∃ N, ∀ n, N ≤ n → productionLoop levels check tag n asts = exceptOut r := by
  induction h with
  | @idle asts h1 h2 =>
    refine ⟨1, fun n hn => ?_⟩
    obtain ⟨m, rfl⟩ : ∃ m, n = m + 1 := ⟨n - 1, by omega⟩
    unfold productionLoop
    rw [(tryPrecedences_iff tag asts levels .noMatch).2 h1]
    simp only
    rw [(checkHolds_iff check tag asts).1.2 h2]; rfl
  | @stuck asts h1 h2 =>
    refine ⟨1, fun n hn => ?_⟩
    obtain ⟨m, rfl⟩ : ∃ m, n = m + 1 := ⟨n - 1, by omega⟩
    unfold productionLoop
    rw [(tryPrecedences_iff tag asts levels .noMatch).2 h1]
    simp only
    rw [(checkHolds_iff check tag asts).2.2 h2]; rfl
  | @last asts asts' h1 h2 =>
    refine ⟨1, fun n hn => ?_⟩
    obtain ⟨m, rfl⟩ : ∃ m, n = m + 1 := ⟨n - 1, by omega⟩
    unfold productionLoop
    rw [(tryPrecedences_iff tag asts levels (.rewritten asts')).2 h1]
    simp only
    rw [(checkHolds_iff check tag asts').1.2 h2]; rfl
  | @next asts asts' r h1 h2 _ ih =>
    obtain ⟨N, hN⟩ := ih
    refine ⟨N + 1, fun n hn => ?_⟩
    obtain ⟨m, rfl⟩ : ∃ m, n = m + 1 := ⟨n - 1, by omega⟩
    unfold productionLoop
    rw [(tryPrecedences_iff tag asts levels (.rewritten asts')).2 h1]
    simp only
    rw [(checkHolds_iff check tag asts').2.2 h2]
    exact hN m (by omega)
  | @fail asts e h1 =>
    refine ⟨1, fun n hn => ?_⟩
    obtain ⟨m, rfl⟩ : ∃ m, n = m + 1 := ⟨n - 1, by omega⟩
    unfold productionLoop
    rw [(tryPrecedences_iff tag asts levels (.err e)).2 h1]
    rfl

theorem produces_of {levels : List (List Sem × Bool)} {check : Sem} {tag : Value} {n : Nat} {asts l : List Ast} {e : Option Err}
    (h : productionLoop levels check tag n asts = .ok (l, e)) :
    ∃ r, Produces levels check tag asts r ∧ exceptOut r = .ok (l, e) := by
  induction n generalizing asts with
  | zero => cases h
  | succ n ih =>
    unfold productionLoop at h
    cases ht : tryPrecedences tag asts levels with
    | panic x => rw [ht] at h; cases h
    | timeout => rw [ht] at h; cases h
    | ok s =>
      rw [ht] at h
      have h0 := (tryPrecedences_iff tag asts levels s).1 ht
      cases s with
      | err x => cases h; exact ⟨.error x, .fail h0, rfl⟩
      | noMatch =>
        simp only at h
        cases hc : checkHolds check tag asts with
        | panic x => rw [hc] at h; cases h
        | timeout => rw [hc] at h; cases h
        | ok b =>
          rw [hc] at h
          cases b with
          | true => cases h; exact ⟨_, .idle h0 ((checkHolds_iff check tag _).1.1 hc), rfl⟩
          | false => cases h; exact ⟨_, .stuck h0 ((checkHolds_iff check tag _).2.1 hc), rfl⟩
      | rewritten asts' =>
        simp only at h
        cases hc : checkHolds check tag asts' with
        | panic x => rw [hc] at h; cases h
        | timeout => rw [hc] at h; cases h
        | ok b =>
          rw [hc] at h
          cases b with
          | true => cases h; exact ⟨_, .last h0 ((checkHolds_iff check tag _).1.1 hc), rfl⟩
          | false =>
            obtain ⟨r, h1, h2⟩ := ih h
            exact ⟨r, .next h0 ((checkHolds_iff check tag _).2.1 hc) h1, h2⟩

/-- Rules that always return, staying within the list when they match. -/
def TotalRule (tag : Value) (r : Sem) : Prop :=
  ∀ asts p, p ≤ asts.length → ∃ o e, r (overAsts tag asts p) = .ok (o, e) ∧ (e = none → o.status = .matched → o.pos ≤ asts.length)

theorem tryRules_total {tag : Value} {rules : List Sem} (h : ∀ r ∈ rules, TotalRule tag r) (asts : List Ast) (p : Nat) (hp : p ≤ asts.length) :
    ∃ s, tryRules (newObjCtx (astSliceSrc asts) tag) asts p rules = .ok s := by
  induction rules with
  | nil => exact ⟨_, rfl⟩
  | cons r rs ih =>
    unfold tryRules
    rw [overAsts_eq]
    obtain ⟨o, e, h1, h2⟩ := h r (by simp) asts p hp
    rw [h1]
    cases e with
    | some e => exact ⟨_, rfl⟩
    | none =>
      simp only
      by_cases ho : o.status = .matched
      · have := h2 rfl ho
        rw [if_neg (fun h => h ho), if_neg (by omega)]
        exact ⟨_, rfl⟩
      · rw [if_pos ho]
        exact ih fun x hx => h x (by simp [hx])

theorem tryPositions_total {tag : Value} {rules : List Sem} (h : ∀ r ∈ rules, TotalRule tag r) (asts : List Ast) (rtol : Bool) (k i : Nat)
    (hk : i + k ≤ asts.length + 1) :
    ∃ s, tryPositions (newObjCtx (astSliceSrc asts) tag) asts rules rtol k i = .ok s := by
  induction k generalizing i with
  | zero => exact ⟨_, rfl⟩
  | succ k ih =>
    unfold tryPositions
    obtain ⟨s, hs⟩ := tryRules_total h asts (if rtol = true then asts.length - i else i) (by split <;> omega)
    rw [hs]
    cases s with
    | noMatch => exact ih (i + 1) (by omega)
    | rewritten l => exact ⟨_, rfl⟩
    | err e => exact ⟨_, rfl⟩

theorem tryPrecedences_total {tag : Value} {levels : List (List Sem × Bool)} (h : ∀ l ∈ levels, ∀ r ∈ l.1, TotalRule tag r) (asts : List Ast) :
    ∃ s, tryPrecedences tag asts levels = .ok s := by
  induction levels with
  | nil => exact ⟨_, rfl⟩
  | cons l ls ih =>
    obtain ⟨rules, rtol⟩ := l
    unfold tryPrecedences
    obtain ⟨s, hs⟩ := tryPositions_total (h (rules, rtol) (by simp)) asts rtol (asts.length + 1) 0 (by omega)
    rw [hs]
    cases s with
    | noMatch => exact ih fun x hx => h x (by simp [hx])
    | rewritten l => exact ⟨_, rfl⟩
    | err e => exact ⟨_, rfl⟩

theorem productionLoop_total {tag : Value} {levels : List (List Sem × Bool)} {check : Sem} (h : ∀ l ∈ levels, ∀ r ∈ l.1, TotalRule tag r)
    (hc : ∀ asts, ∃ o e, check (overAsts tag asts 0) = .ok (o, e))
    (hs : ∀ asts asts', ProdStep levels tag asts (.ok asts') → asts'.length < asts.length)
    (n : Nat) (asts : List Ast) (hn : asts.length < n) : ∃ l e, productionLoop levels check tag n asts = .ok (l, e) := by
  induction n generalizing asts with
  | zero => omega
  | succ n ih =>
    unfold productionLoop
    obtain ⟨s, hs'⟩ := tryPrecedences_total h asts
    have hch : ∀ asts, ∃ b, checkHolds check tag asts = .ok b := fun asts => by
      obtain ⟨o, e, h⟩ := hc asts
      have h' : check (newObjCtx (astSliceSrc asts) tag) = .ok (o, e) := h
      unfold checkHolds
      rw [h']; exact ⟨_, rfl⟩
    rw [hs']
    cases s with
    | err e => exact ⟨_, _, rfl⟩
    | noMatch =>
      obtain ⟨b, hb⟩ := hch asts
      simp only; rw [hb]
      cases b <;> exact ⟨_, _, rfl⟩
    | rewritten asts' =>
      obtain ⟨b, hb⟩ := hch asts'
      simp only; rw [hb]
      cases b with
      | true => exact ⟨_, _, rfl⟩
      | false =>
        have := hs asts asts' ((tryPrecedences_iff tag asts levels _).1 hs')
        exact ih asts' (by omega)

end Takenoco
