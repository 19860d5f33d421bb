import Verif.Spec.Twin
import Verif.Lemmas.Algebra
/-
Grammars that differ only in their transformers.
-/
namespace Takenoco
open Spec

variable {I : Ctx → Prop} {env env' : Env}

/-- Two parsers that end alike from one place. -/
def TwinP (I : Ctx → Prop) (p q : Sem) : Prop :=
  ∀ c c', OnePlace c c' → c.status = .matched → I c → TwinEnd I (Outcome.of (p c)) (Outcome.of (q c'))

theorem Spec.OnePlace.enter {c c' : Ctx} (h : OnePlace c c') (s s' : String) : OnePlace (enter s c) (Spec.enter s' c') := ⟨h.str, h.slice, h.pos, h.len, rfl⟩

theorem Spec.TwinEnd.onMatch {x y : Outcome} (h : TwinEnd I x y) {f f' : Ctx → Outcome}
    (hf : ∀ o o', x = .matched o → y = .matched o' → OnePlace o o' → I o → TwinEnd I (f o) (f' o')) : TwinEnd I (x.onMatch f) (y.onMatch f') := by
  cases h with
  | matched h1 h2 => exact hf _ _ rfl rfl h1 h2
  | unmatched => exact .unmatched
  | failed h => exact .failed h
  | panickedL => exact .panickedL
  | panickedR => exact .panickedR
  | timedOutL => exact .timedOutL
  | timedOutR => exact .timedOutR

theorem outcome_matched_status {x : Out PRes} {o : Ctx} (h : Outcome.of x = .matched o) : o.status = .matched := by
  rcases x with ⟨c, _ | e⟩ | _ | _ <;> simp only [Outcome.of, reduceCtorEq] at h
  split at h
  · rename_i hc; cases h; exact hc
  · cases h
  · cases h

variable {ps qs : List Sem}

theorem twin_seqO (h : Each (TwinP I) ps qs) {c c' : Ctx} (hc : OnePlace c c') (hm : c.status = .matched) (hi : I c) : TwinEnd I (seqO ps c) (seqO qs c') := by
  induction h generalizing c c' with
  | nil => exact .matched hc hi
  | cons h1 _ ih =>
    unfold seqO
    exact (h1 c c' hc hm hi).onMatch fun o o' ho _ h2 h3 => ih h2 (outcome_matched_status ho) h3

theorem twin_choiceO (h : Each (TwinP I) ps qs) {c c' : Ctx} (hc : OnePlace c c') (hm : c.status = .matched) (hi : I c) : TwinEnd I (choiceO ps c) (choiceO qs c') := by
  induction h with
  | nil => exact .unmatched
  | cons h1 _ ih =>
    unfold choiceO
    have := h1 c c' hc hm hi
    generalize Outcome.of _ = x at this
    generalize Outcome.of _ = y at this
    cases this with
    | unmatched => exact ih
    | matched h1 h2 => exact .matched h1 h2
    | failed h => exact .failed h
    | panickedL => exact .panickedL
    | panickedR => exact .panickedR
    | timedOutL => exact .timedOutL
    | timedOutR => exact .timedOutR

/-- `I` is about places. -/
def OfPlace (I : Ctx → Prop) : Prop := ∀ c c', OnePlace c c' → I c → I c'

theorem Spec.OnePlace.qty {c c' : Ctx} (h : OnePlace c c') (k k' : Nat) : OnePlace { c with qty := k } { c' with qty := k' } := ⟨h.str, h.slice, h.pos, h.len, h.status⟩

theorem OfPlace.qty (hI : OfPlace I) {c : Ctx} (h : I c) (k : Nat) : I { c with qty := k } := hI c _ ⟨rfl, rfl, rfl, rfl, rfl⟩ h

theorem OfPlace.enter (hI : OfPlace I) {c : Ctx} (hm : c.status = .matched) (h : I c) (s : String) : I (enter s c) := hI c _ ⟨rfl, rfl, rfl, rfl, hm.symm⟩ h

theorem twin_repEnd (hI : OfPlace I) {t : Times} {k : Nat} {c c' : Ctx} (hc : OnePlace c c') (hi : I c) : TwinEnd I (repEnd t k c) (repEnd t k c') := by
  unfold repEnd
  split
  · exact .matched (hc.qty k k) (hI.qty hi k)
  · exact .unmatched

theorem twin_loopO (hI : OfPlace I) (h : Each (TwinP I) ps qs) {t : Times} : ∀ m k {c c' : Ctx}, OnePlace c c' → c.status = .matched → I c →
    TwinEnd I (loopO t ps m k c) (loopO t qs m k c') := by
  intro m
  induction m with
  | zero =>
    intro k c c' hc hm hi
    unfold loopO
    split
    · exact .timedOutL
    · exact twin_repEnd hI hc hi
  | succ m ih =>
    intro k c c' hc hm hi
    unfold loopO
    have h1 := twin_seqO h hc hm hi
    have h2 : ∀ d, seqO ps c = .matched d → d.status = .matched := fun d => seqO_status hm
    generalize seqO ps c = x at h1 h2
    generalize seqO qs c' = y at h1
    cases h1 with
    | @matched o o' h3 h4 => exact ih (k + 1) (h3.qty k k) (show o.status = _ from h2 o rfl) (hI.qty h4 k)
    | unmatched => exact twin_repEnd hI hc hi
    | failed h => exact .failed h
    | panickedL => exact .panickedL
    | panickedR => exact .panickedR
    | timedOutL => exact .timedOutL
    | timedOutR => exact .timedOutR

theorem twin_flatGroup (hI : OfPlace I) (h : Each (TwinP I) ps qs) : TwinP I (flatGroup ps) (flatGroup qs) := by
  intro c c' hc hm hi
  rw [flatGroup_outcome, flatGroup_outcome]
  exact (twin_seqO h (hc.enter _ _) rfl (hI.enter hm hi _)).onMatch fun o o' _ _ h2 h3 => .matched (h2.qty 1 1) (hI.qty h3 1)

theorem twin_group (hI : OfPlace I) (h : Each (TwinP I) ps qs) : TwinP I (group ps) (group qs) := by
  intro c c' hc hm hi
  rw [group_outcome, group_outcome]
  refine (twin_seqO h (hc.enter _ _) rfl (hI.enter hm hi _)).onMatch fun o o' _ _ h2 h3 => ?_
  split
  · exact .panickedL
  · split
    · exact .panickedR
    · exact .matched ⟨h2.str, h2.slice, h2.pos, h2.len, h2.status⟩ (hI o _ ⟨rfl, rfl, rfl, rfl, rfl⟩ h3)

theorem twin_first (hI : OfPlace I) (hne : ps ≠ []) (h : Each (TwinP I) ps qs) : TwinP I (first ps) (first qs) := by
  intro c c' hc hm hi
  have hne' : qs ≠ [] := by
    cases h with
    | nil => exact hne
    | cons _ _ => simp
  rw [first_outcome hne, first_outcome hne']
  exact (twin_choiceO h (hc.enter _ _) rfl (hI.enter hm hi _)).onMatch fun o o' _ _ h2 h3 => .matched (h2.qty 1 1) (hI.qty h3 1)

theorem twin_repeat (hI : OfPlace I) (h : Each (TwinP I) ps qs) (n : Nat) (t : Times) : TwinP I (repeatP n t ps) (repeatP n t qs) := by
  intro c c' hc hm hi
  rw [repeat_outcome, repeat_outcome]
  exact twin_loopO hI h _ _ (hc.enter _ _) rfl (hI.enter hm hi _)

theorem twin_lookAhead (hI : OfPlace I) (h : Each (TwinP I) ps qs) : TwinP I (lookAhead ps) (lookAhead qs) := by
  intro c c' hc hm hi
  rw [lookAhead_outcome _ hm, lookAhead_outcome _ (hc.status.trans hm)]
  exact (twin_seqO h (hc.enter _ _) rfl (hI.enter hm hi _)).onMatch fun o o' _ _ h2 h3 =>
    .matched ⟨hc.str, hc.slice, hc.pos, hc.len, hc.status⟩ (hI c _ ⟨rfl, rfl, rfl, rfl, rfl⟩ hi)

theorem twin_lookAheadN (hI : OfPlace I) (h : Each (TwinP I) ps qs) : TwinP I (lookAheadN ps) (lookAheadN qs) := by
  intro c c' hc hm hi
  rw [lookAheadN_outcome _ hm, lookAheadN_outcome _ (hc.status.trans hm)]
  have h1 := twin_seqO h (hc.enter ":base:LookAheadN" ":base:LookAheadN") rfl (hI.enter hm hi _)
  generalize seqO ps _ = x at h1
  generalize seqO qs _ = y at h1
  cases h1 with
  | matched h3 h4 => exact .unmatched
  | unmatched => exact .matched ⟨hc.str, hc.slice, hc.pos, hc.len, hc.status⟩ (hI c _ ⟨rfl, rfl, rfl, rfl, rfl⟩ hi)
  | failed h => exact .failed h
  | panickedL => exact .panickedL
  | panickedR => exact .panickedR
  | timedOutL => exact .timedOutL
  | timedOutR => exact .timedOutR

theorem twin_indirect (hI : OfPlace I) {p q : Sem} (h : TwinP I p q) : TwinP I (indirect p) (indirect q) := by
  intro c c' hc hm hi
  unfold indirect
  rw [light_of, light_of]
  have h1 := h c c' hc hm hi
  generalize Outcome.of (p c) = x at h1
  generalize Outcome.of (q c') = y at h1
  cases h1 with
  | @matched o o' h3 h4 => exact .matched ⟨h3.str, h3.slice, h3.pos, h3.len, h3.status⟩ (hI o _ ⟨rfl, rfl, rfl, rfl, rfl⟩ h4)
  | unmatched => exact .unmatched
  | failed h => exact .failed h
  | panickedL => exact .panickedL
  | panickedR => exact .panickedR
  | timedOutL => exact .timedOutL
  | timedOutR => exact .timedOutR

/-- A transformer that reports no error leaves the place as it is. -/
theorem applyTransforms_quiet {ts : List TSem} {c o : Ctx} (hm : o.status = .matched) (h : ∀ d l e, applyTrs d ts (o.stack.drop c.stack.length) ≠ .ok (l, some e)) :
    (∃ l, Outcome.of (applyTransforms (variadic ts) c o) = .matched { o with stack := l }) ∨ (∃ p, Outcome.of (applyTransforms (variadic ts) c o) = .panicked p) ∨
      Outcome.of (applyTransforms (variadic ts) c o) = .timedOut := by
  unfold variadic
  split
  · exact .inl ⟨o.stack, by simp only [applyTransforms, Outcome.of, hm]; rw [← hm]⟩
  · unfold applyTransforms
    split
    · exact .inr (.inl ⟨_, rfl⟩)
    · split
      · exact .inr (.inl ⟨_, rfl⟩)
      · exact .inr (.inr rfl)
      · rename_i h1; exact absurd h1 (h _ _ _)
      · exact .inl ⟨o.stack.take c.stack.length ++ ‹List Ast›, by simp only [Outcome.of, hm]⟩

theorem twin_trans (hI : OfPlace I) {p q : Sem} {ts us : List TSem} (h : TwinP I p q)
    (ht : ∀ c o, c.status = .matched → I c → Outcome.of (p c) = .matched o → ∀ d l e, applyTrs d ts (o.stack.drop c.stack.length) ≠ .ok (l, some e))
    (hu : ∀ c o, c.status = .matched → I c → Outcome.of (q c) = .matched o → ∀ d l e, applyTrs d us (o.stack.drop c.stack.length) ≠ .ok (l, some e)) :
    TwinP I (trans p ts) (trans q us) := by
  intro c c' hc hm hi
  rw [trans_outcome, trans_outcome]
  have he := hc.enter ":base:Trans" ":base:Trans"
  refine (h _ _ he rfl (hI.enter hm hi _)).onMatch fun o o' ho ho' h2 h3 => ?_
  have h4 := applyTransforms_quiet (ts := ts) (c := { c with cls := ":base:Trans" }) (o := { o with qty := 1 }) (show o.status = _ from outcome_matched_status ho)
    (ht (enter ":base:Trans" c) o rfl (hI.enter hm hi _) ho)
  have h5 := applyTransforms_quiet (ts := us) (c := { c' with cls := ":base:Trans" }) (o := { o' with qty := 1 }) (show o'.status = _ from outcome_matched_status ho')
    (hu (enter ":base:Trans" c') o' rfl (hI _ _ he (hI.enter hm hi _)) ho')
  rcases h4 with ⟨l, h4⟩ | ⟨p, h4⟩ | h4
  · rcases h5 with ⟨l', h5⟩ | ⟨p, h5⟩ | h5
    · rw [h4, h5]
      exact .matched ⟨h2.str, h2.slice, h2.pos, h2.len, h2.status⟩ (hI o _ ⟨rfl, rfl, rfl, rfl, rfl⟩ h3)
    · rw [h5]; exact .panickedR
    · rw [h5]; exact .timedOutR
  · rw [h4]; exact .panickedL
  · rw [h4]; exact .timedOutL

theorem Spec.Each.map {α β γ δ : Type} {R : α → β → Prop} {S : γ → δ → Prop} {f : α → γ} {g : β → δ} {l : List α} {m : List β} (h : Each R l m)
    (hf : ∀ a b, R a b → S (f a) (g b)) : Each S (l.map f) (m.map g) := by
  induction h with
  | nil => exact .nil
  | cons h _ ih => exact .cons (hf _ _ h) ih

/-- Twins end alike. -/
theorem twin_run (hI : OfPlace I) (he : ∀ name, Twin I env env' (env name) (env' name)) (n : Nat) : ∀ g g', Twin I env env' g g' → TwinP I (run env n g) (run env' n g') := by
  induction n with
  | zero =>
    intro g g' _ c c' _ _ _
    rw [run.eq_def]
    exact .timedOutL
  | succ n ih =>
    intro g g' h
    cases h with
    | same h => exact h _
    | flatGroup h => rw [run.eq_def, run.eq_def]; exact twin_flatGroup hI (h.map ih)
    | group h => rw [run.eq_def, run.eq_def]; exact twin_group hI (h.map ih)
    | first hne h => rw [run.eq_def, run.eq_def]; exact twin_first hI (by simpa using hne) (h.map ih)
    | lookAhead h => rw [run.eq_def, run.eq_def]; exact twin_lookAhead hI (h.map ih)
    | lookAheadN h => rw [run.eq_def, run.eq_def]; exact twin_lookAheadN hI (h.map ih)
    | «repeat» h => rw [run.eq_def, run.eq_def]; exact twin_repeat hI (h.map ih) _ _
    | indirect => rw [run.eq_def, run.eq_def]; exact twin_indirect hI (ih _ _ (he _))
    | trans h h1 h2 =>
      rw [run.eq_def, run.eq_def]
      exact twin_trans hI (ih _ _ h) (fun c o => h1 n n c o) (fun c o => h2 n n c o)

end Takenoco
