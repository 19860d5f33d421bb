import Verif.Lemmas.Production
/-
Panics of ProductionRule.
-/
namespace Takenoco
open Spec

theorem tryRules_panic (tag : Value) (asts : List Ast) (p : Nat) (rules : List Sem) (x : Panic) :
    tryRules (newObjCtx (astSliceSrc asts) tag) asts p rules = .panic x ↔ PanicsAt rules tag asts p x := by
  induction rules with
  | nil =>
    unfold tryRules
    refine ⟨fun h => (by cases h), fun h => ?_⟩
    cases h with
    | rule h => simp at h
    | beyond h => simp at h
  | cons r rs ih =>
    unfold tryRules
    rw [overAsts_eq]
    have inv : PanicsAt (r :: rs) tag asts p x → r (overAsts tag asts p) = .panic x ∨
        (∃ o, r (overAsts tag asts p) = .ok (o, none) ∧ o.status = .matched ∧ asts.length < o.pos ∧ x = .index) ∨
        (∃ o, r (overAsts tag asts p) = .ok (o, none) ∧ o.status ≠ .matched ∧ PanicsAt rs tag asts p x) := by
      intro h
      cases h with
      | @rule pre post r' _ h1 h2 h3 =>
        cases pre with
        | nil => simp at h1; obtain ⟨rfl, rfl⟩ := h1; exact .inl h3
        | cons y ys =>
          simp at h1; obtain ⟨rfl, rfl⟩ := h1
          obtain ⟨o, h4, h5⟩ := h2 r (by simp)
          exact .inr (.inr ⟨o, h4, h5, .rule rfl (fun z hz => h2 z (by simp [hz])) h3⟩)
      | @beyond pre post r' o h1 h2 h3 h4 h5 =>
        cases pre with
        | nil => simp at h1; obtain ⟨rfl, rfl⟩ := h1; exact .inr (.inl ⟨o, h3, h4, h5, rfl⟩)
        | cons y ys =>
          simp at h1; obtain ⟨rfl, rfl⟩ := h1
          obtain ⟨o', h6, h7⟩ := h2 r (by simp)
          exact .inr (.inr ⟨o', h6, h7, .beyond rfl (fun z hz => h2 z (by simp [hz])) h3 h4 h5⟩)
    cases hr : r (overAsts tag asts p) with
    | panic y =>
      simp only
      constructor
      · intro h; cases h; exact .rule (pre := []) rfl (fun z hz => (by cases hz)) hr
      · intro h; rcases inv h with h | ⟨o, h, _⟩ | ⟨o, h, _⟩ <;> rw [hr] at h <;> cases h; rfl
    | timeout =>
      simp only
      constructor
      · intro h; cases h
      · intro h; rcases inv h with h | ⟨o, h, _⟩ | ⟨o, h, _⟩ <;> rw [hr] at h <;> cases h
    | ok oe =>
      obtain ⟨o, e⟩ := oe
      cases e with
      | some e =>
        simp only
        constructor
        · intro h; cases h
        · intro h; rcases inv h with h | ⟨o, h, _⟩ | ⟨o, h, _⟩ <;> rw [hr] at h <;> cases h
      | none =>
        simp only
        by_cases ho : o.status = .matched
        · rw [if_neg (by simp [ho])]
          by_cases hp : asts.length < o.pos
          · rw [if_pos hp]
            constructor
            · intro h; cases h; exact .beyond (pre := []) rfl (fun z hz => (by cases hz)) hr ho hp
            · intro h
              rcases inv h with h | ⟨o', h, _, _, h'⟩ | ⟨o', h, h', _⟩ <;> rw [hr] at h <;> cases h
              · rw [h']
              · exact absurd ho h'
          · rw [if_neg hp]
            constructor
            · intro h; cases h
            · intro h
              rcases inv h with h | ⟨o', h, _, h', _⟩ | ⟨o', h, h', _⟩ <;> rw [hr] at h <;> cases h
              · exact absurd h' hp
              · exact absurd ho h'
        · rw [if_pos ho, ih]
          constructor
          · intro h
            cases h with
            | rule h1 h2 h3 => subst h1; exact .rule (pre := r :: _) rfl (inapp_cons hr ho h2) h3
            | beyond h1 h2 h3 h4 h5 => subst h1; exact .beyond (pre := r :: _) rfl (inapp_cons hr ho h2) h3 h4 h5
          · intro h
            rcases inv h with h | ⟨o', h, h', _⟩ | ⟨o', h, _, h'⟩ <;> rw [hr] at h <;> cases h
            · exact absurd h' ho
            · exact h'

theorem inapplicable_not_panics {rules : List Sem} {tag : Value} {asts : List Ast} {p : Nat} {x : Panic}
    (h : Inapplicable rules tag asts p) : ¬ PanicsAt rules tag asts p x := by
  intro ha
  have h1 := (tryRules_panic tag asts p rules x).2 ha
  have h2 := (tryRules_iff tag asts p rules .noMatch).2 h
  rw [h1] at h2; cases h2

theorem tryPositions_panic (tag : Value) (asts : List Ast) (rules : List Sem) (rtol : Bool) (k i : Nat) (x : Panic) :
    tryPositions (newObjCtx (astSliceSrc asts) tag) asts rules rtol k i = .panic x ↔
      ∃ j, i ≤ j ∧ j < i + k ∧ PanicsAt rules tag asts (visited rtol asts.length j) x ∧
          ∀ j', i ≤ j' → j' < j → Inapplicable rules tag asts (visited rtol asts.length j') := by
  induction k generalizing i with
  | zero =>
    unfold tryPositions
    exact ⟨fun h => (by cases h), fun ⟨j, h1, h2, _⟩ => by omega⟩
  | succ k ih =>
    unfold tryPositions
    have hv : (if rtol = true then asts.length - i else i) = visited rtol asts.length i := rfl
    rw [hv]
    have stop : ∀ r, tryRules (newObjCtx (astSliceSrc asts) tag) asts (visited rtol asts.length i) rules = r → r ≠ .ok .noMatch →
        (r = .panic x ↔ ∃ j, i ≤ j ∧ j < i + (k + 1) ∧ PanicsAt rules tag asts (visited rtol asts.length j) x ∧
          ∀ j', i ≤ j' → j' < j → Inapplicable rules tag asts (visited rtol asts.length j')) := by
      intro r hr hn
      constructor
      · intro h; rw [h] at hr
        exact ⟨i, by omega, by omega, (tryRules_panic ..).1 hr, fun j' _ _ => by omega⟩
      · rintro ⟨j, h1, h2, h3, h4⟩
        by_cases hj : j = i
        · rw [hj] at h3; rw [← hr]; exact (tryRules_panic ..).2 h3
        · exact absurd ((tryRules_iff tag asts _ rules .noMatch).2 (h4 i (by omega) (by omega))) (by rw [hr]; exact hn)
    cases ht : tryRules (newObjCtx (astSliceSrc asts) tag) asts (visited rtol asts.length i) rules with
    | panic y => exact stop _ ht (by simp)
    | timeout => exact stop _ ht (by simp)
    | ok s =>
      cases s with
      | rewritten l => exact stop _ ht (by simp)
      | err e => exact stop _ ht (by simp)
      | noMatch =>
        simp only
        have h0 : Inapplicable rules tag asts (visited rtol asts.length i) := (tryRules_iff tag asts _ rules .noMatch).1 ht
        rw [ih]
        constructor
        · rintro ⟨j, h1, h2, h3, h4⟩
          refine ⟨j, by omega, by omega, h3, fun j' h5 h6 => ?_⟩
          by_cases hj : j' = i
          · rw [hj]; exact h0
          · exact h4 j' (by omega) h6
        · rintro ⟨j, h1, h2, h3, h4⟩
          have : j ≠ i := fun hj => inapplicable_not_panics h0 (hj ▸ h3)
          exact ⟨j, by omega, by omega, h3, fun j' h5 h6 => h4 j' (by omega) h6⟩

theorem tryLevel_panic (tag : Value) (asts : List Ast) (rules : List Sem) (rtol : Bool) (x : Panic) :
    tryPositions (newObjCtx (astSliceSrc asts) tag) asts rules rtol (asts.length + 1) 0 = .panic x ↔
      ∃ p, p ≤ asts.length ∧ PanicsAt rules tag asts p x ∧
          ∀ q, q ≤ asts.length → (if rtol then p < q else q < p) → Inapplicable rules tag asts q := by
  rw [tryPositions_panic]
  cases rtol with
  | false =>
    simp only [visited, Bool.false_eq_true, if_false]
    constructor
    · rintro ⟨j, h1, h2, h3, h4⟩; exact ⟨j, by omega, h3, fun q _ h => h4 q (by omega) h⟩
    · rintro ⟨j, h1, h3, h4⟩; exact ⟨j, by omega, by omega, h3, fun q _ h => h4 q (by omega) h⟩
  | true =>
    simp only [visited, if_true]
    constructor
    · rintro ⟨j, h1, h2, h3, h4⟩
      refine ⟨asts.length - j, by omega, h3, fun q hq h => ?_⟩
      have := h4 (asts.length - q) (by omega) (by omega)
      rwa [show asts.length - (asts.length - q) = q by omega] at this
    · rintro ⟨p, h1, h3, h4⟩
      refine ⟨asts.length - p, by omega, by omega, ?_, fun j' _ hj => h4 _ (by omega) (by omega)⟩
      rwa [show asts.length - (asts.length - p) = p by omega]

theorem stepPanics_cons {rules : List Sem} {rtol : Bool} {ls : List (List Sem × Bool)} {tag : Value} {asts : List Ast} {x : Panic} :
    StepPanics ((rules, rtol) :: ls) tag asts x ↔
      (∃ p, p ≤ asts.length ∧ PanicsAt rules tag asts p x ∧
          ∀ q, q ≤ asts.length → (if rtol then p < q else q < p) → Inapplicable rules tag asts q) ∨
      ((∀ p, p ≤ asts.length → Inapplicable rules tag asts p) ∧ StepPanics ls tag asts x) := by
  constructor
  · rintro ⟨pre, rules', rtol', post, h1, h2, h3⟩
    cases pre with
    | nil => simp at h1; obtain ⟨⟨rfl, rfl⟩, rfl⟩ := h1; exact .inl h3
    | cons l pre =>
      simp at h1
      obtain ⟨rfl, rfl⟩ := h1
      exact .inr ⟨h2 (rules, rtol) (by simp), pre, rules', rtol', post, rfl, fun l hl => h2 l (by simp [hl]), h3⟩
  · rintro (h | ⟨h, pre, rules', rtol', post, h1, h2, h3⟩)
    · exact ⟨[], rules, rtol, ls, rfl, fun l hl => (by cases hl), h⟩
    · refine ⟨(rules, rtol) :: pre, rules', rtol', post, by rw [h1]; rfl, fun l hl => ?_, h3⟩
      rcases List.mem_cons.1 hl with rfl | hl
      · exact h
      · exact h2 l hl

theorem tryPrecedences_panic (tag : Value) (asts : List Ast) (levels : List (List Sem × Bool)) (x : Panic) :
    tryPrecedences tag asts levels = .panic x ↔ StepPanics levels tag asts x := by
  induction levels with
  | nil =>
    unfold tryPrecedences
    exact ⟨fun h => (by cases h), fun ⟨pre, _, _, _, h, _⟩ => by simp at h⟩
  | cons l ls ih =>
    obtain ⟨rules, rtol⟩ := l
    unfold tryPrecedences
    rw [stepPanics_cons, ← tryLevel_panic, ← ih]
    have hi := tryLevel_iff tag asts rules rtol .noMatch
    simp only [Search.toExcept] at hi
    rw [← hi]
    cases ht : tryPositions (newObjCtx (astSliceSrc asts) tag) asts rules rtol (asts.length + 1) 0 with
    | panic y => simp
    | timeout => simp
    | ok s => cases s <;> simp

theorem checkHolds_panic (check : Sem) (tag : Value) (asts : List Ast) (x : Panic) :
    checkHolds check tag asts = .panic x ↔ check (overAsts tag asts 0) = .panic x := by
  unfold checkHolds
  have e : newObjCtx (astSliceSrc asts) tag = overAsts tag asts 0 := rfl
  rw [e]
  cases check (overAsts tag asts 0) <;> simp

theorem productionLoop_panics {levels : List (List Sem × Bool)} {check : Sem} {tag : Value} {asts : List Ast} {x : Panic}
    (h : ProdPanics levels check tag asts x) : ∃ N, ∀ n, N ≤ n → productionLoop levels check tag n asts = .panic x := by
  induction h with
  | @step asts x h =>
    refine ⟨1, fun n hn => ?_⟩
    obtain ⟨m, rfl⟩ : ∃ m, n = m + 1 := ⟨n - 1, by omega⟩
    unfold productionLoop
    rw [(tryPrecedences_panic ..).2 h]
  | @idle asts x h1 h2 =>
    refine ⟨1, fun n hn => ?_⟩
    obtain ⟨m, rfl⟩ : ∃ m, n = m + 1 := ⟨n - 1, by omega⟩
    unfold productionLoop
    rw [(tryPrecedences_iff tag asts levels .noMatch).2 h1]
    simp only
    rw [(checkHolds_panic ..).2 h2]
  | @check asts asts' x h1 h2 =>
    refine ⟨1, fun n hn => ?_⟩
    obtain ⟨m, rfl⟩ : ∃ m, n = m + 1 := ⟨n - 1, by omega⟩
    unfold productionLoop
    rw [(tryPrecedences_iff tag asts levels (.rewritten asts')).2 h1]
    simp only
    rw [(checkHolds_panic ..).2 h2]
  | @next asts asts' x h1 h2 _ ih =>
    obtain ⟨N, hN⟩ := ih
    refine ⟨N + 1, fun n hn => ?_⟩
    obtain ⟨m, rfl⟩ : ∃ m, n = m + 1 := ⟨n - 1, by omega⟩
    unfold productionLoop
    rw [(tryPrecedences_iff tag asts levels (.rewritten asts')).2 h1]
    simp only
    rw [(checkHolds_iff check tag asts').2.2 h2]
    exact hN m (by omega)

theorem prodPanics_of {levels : List (List Sem × Bool)} {check : Sem} {tag : Value} {n : Nat} {asts : List Ast} {x : Panic}
    (h : productionLoop levels check tag n asts = .panic x) : ProdPanics levels check tag asts x := by
  induction n generalizing asts with
  | zero => cases h
  | succ n ih =>
    unfold productionLoop at h
    cases ht : tryPrecedences tag asts levels with
    | panic y => rw [ht] at h; cases h; exact .step ((tryPrecedences_panic ..).1 ht)
    | timeout => rw [ht] at h; cases h
    | ok s =>
      rw [ht] at h
      have hs := (tryPrecedences_iff tag asts levels s).1 ht
      cases s with
      | err e => cases h
      | noMatch =>
        simp only at h
        cases hc : checkHolds check tag asts with
        | panic y => rw [hc] at h; cases h; exact .idle hs ((checkHolds_panic ..).1 hc)
        | timeout => rw [hc] at h; cases h
        | ok b => rw [hc] at h; cases b <;> cases h
      | rewritten l =>
        simp only at h
        cases hc : checkHolds check tag l with
        | panic y => rw [hc] at h; cases h; exact .check hs ((checkHolds_panic ..).1 hc)
        | timeout => rw [hc] at h; cases h
        | ok b =>
          rw [hc] at h
          cases b with
          | true => cases h
          | false => exact .next hs ((checkHolds_iff check tag l).2.1 hc) (ih h)

end Takenoco
