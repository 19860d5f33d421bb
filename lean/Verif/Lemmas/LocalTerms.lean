import Verif.Lemmas.Local
/-
The terminals and transformers of the library do not look at class name, quantity, tag and stack.
-/
namespace Takenoco
open Spec

section
variable {below : List Ast}

theorem unm_alike {c c' : Ctx} (h : Alike below c c') : Alike below (unm c) (unm c') := h.setStatus _

theorem pushStr_alike {c c' : Ctx} (h : Alike below c c') (cls : String) (v : Bytes) (k : Nat) : Alike below (pushStr cls v k c) (pushStr cls v k c') := by
  refine ⟨h.str, h.slice, ?_, rfl, rfl, ?_⟩
  · simp only [pushStr, h.pos]
  · simp only [pushStr, h.stack, h.pos, h.len, List.append_assoc]

theorem pushObj_alike {c c' : Ctx} (h : Alike below c c') (cls : String) (ty : AstType) (v : Value) (k : Nat) :
    Alike below (pushObj cls ty v k c) (pushObj cls ty v k c') := by
  refine ⟨h.str, h.slice, ?_, rfl, rfl, ?_⟩
  · simp only [pushObj, h.pos]
  · simp only [pushObj, h.stack, h.pos, h.len, List.append_assoc]

theorem hasPrefixAt_alike {c c' : Ctx} (h : Alike below c c') (s : Bytes) : hasPrefixAt s c' = hasPrefixAt s c := by
  simp only [hasPrefixAt, h.str, h.pos]

theorem charFn_local (cls : String) (p : Nat → Bool) : Local below (charFn cls p) := by
  intro c c' h
  unfold charFn
  rw [h.str, h.pos]
  split
  · exact .panic
  · simp only
    split
    · exact .ok ⟨rfl, unm_alike h⟩
    · split
      · exact .ok ⟨rfl, pushStr_alike h _ _ _⟩
      · exact .ok ⟨rfl, unm_alike h⟩

theorem baseTerm_local {A : Ast → Prop} {p : Sem} (h : BaseTerm A p) : Local below p := by
  cases h with
  | error msg => exact light_local fun c c' h => .ok ⟨rfl, (h.setLen 0).setStatus _⟩
  | unmatched => exact light_local fun c c' h => .ok ⟨rfl, (h.setLen 0).setStatus _⟩
  | zero asts _ =>
    refine light_local fun c c' h => .ok ⟨rfl, h.str, h.slice, h.pos, rfl, rfl, ?_⟩
    simp only [h.pos, h.len, h.stack, List.append_assoc]
  | start =>
    refine light_local fun c c' h => ?_
    by_cases hp : c.pos = 0
    · rw [if_pos hp, if_pos (h.pos.trans hp)]; exact .ok ⟨rfl, (h.setLen 0).setStatus _⟩
    · rw [if_neg hp, if_neg (fun hq => hp (h.pos.symm.trans hq))]; exact .ok ⟨rfl, h.setStatus _⟩

theorem wordBoundary_local (isW : Nat → Bool) : Local below (wordBoundaryFn isW) := by
  intro c c' h
  obtain ⟨str, slice, pos, len, qty, stack, status, cls, tag⟩ := c
  obtain ⟨str', slice', pos', len', qty', stack', status', cls', tag'⟩ := c'
  obtain ⟨h1, h2, h3, h4, h5, h6⟩ := h
  simp only at h1 h2 h3 h4 h5 h6
  subst h1 h2 h3 h4 h5 h6
  have hy : ∀ s, OutR (SameRes below) (.ok ((⟨str', slice', pos', 0, qty, stack, s, cls, tag⟩ : Ctx), (none : Option Err)))
      (.ok ((⟨str', slice', pos', 0, qty', below ++ stack, s, cls', tag'⟩ : Ctx), (none : Option Err))) :=
    fun s => .ok ⟨rfl, rfl, rfl, rfl, rfl, rfl, rfl⟩
  simp only [wordBoundaryFn]
  repeat' split
  all_goals first | exact .panic | exact hy _

theorem charClassFn'_local (cc : List Bytes) (c c' : Ctx) (h : Alike below c c') : OutR (SameRes below) (charClassFn' c cc) (charClassFn' c' cc) := by
  induction cc with
  | nil => exact .ok ⟨rfl, unm_alike h⟩
  | cons s cc ih =>
    unfold charClassFn'
    rw [hasPrefixAt_alike h]
    split
    · exact .ok ⟨rfl, pushStr_alike h _ _ _⟩
    · exact ih

theorem strTerm_local {A : Ast → Prop} {p : Sem} (h : StrTerm A p) : Local below p := by
  cases h with
  | base h => exact baseTerm_local h
  | any => exact light_local (charFn_local _ _)
  | «end» =>
    refine light_local fun c c' h => ?_
    by_cases hp : c.pos = c.str.length
    · rw [if_pos hp, if_pos (by rw [h.pos, h.str, hp])]; exact .ok ⟨rfl, (h.setLen 0).setStatus _⟩
    · rw [if_neg hp, if_neg (by rw [h.pos, h.str]; exact hp)]; exact .ok ⟨rfl, unm_alike h⟩
  | seq s =>
    refine light_local fun c c' h => ?_
    rw [hasPrefixAt_alike h]
    split
    · exact .ok ⟨rfl, pushStr_alike h _ _ _⟩
    · exact .ok ⟨rfl, unm_alike h⟩
  | seqI orbit s =>
    refine light_local fun c c' h => ?_
    simp only
    rw [h.str, h.pos]
    split
    · split
      · exact .ok ⟨rfl, pushStr_alike h _ _ _⟩
      · exact .ok ⟨rfl, unm_alike h⟩
    · exact .ok ⟨rfl, unm_alike h⟩
  | charRange cr => exact light_local (charFn_local _ _)
  | charRangeN cr => exact light_local (charFn_local _ _)
  | charClass cc => exact light_local (charClassFn'_local cc)
  | charClassN cc =>
    refine light_local fun c c' h => ?_
    simp only [hasPrefixAt_alike h]
    split
    · exact .ok ⟨rfl, unm_alike h⟩
    · exact charFn_local _ _ c c' h
  | charClassFn fn => exact light_local (charFn_local _ _)
  | whitespace => exact light_local (charFn_local _ _)
  | whitespaceNoLineBreak => exact light_local (charFn_local _ _)
  | lineBreak => exact light_local (charFn_local _ _)
  | alpha => exact light_local (charFn_local _ _)
  | number => exact light_local (charFn_local _ _)
  | alnum => exact light_local (charFn_local _ _)
  | binNumber => exact light_local (charFn_local _ _)
  | octNumber => exact light_local (charFn_local _ _)
  | hexNumber => exact light_local (charFn_local _ _)
  | wordBoundary => exact light_local (wordBoundary_local _)
  | unicodeWordBoundary u => exact light_local (wordBoundary_local _)

theorem withSlice_local {f : SliceSrc → Ctx → Out PRes} (hf : ∀ src c c', Alike below c c' → OutR (SameRes below) (f src c) (f src c')) :
    Local below (withSlice f) := by
  intro c c' h
  unfold withSlice
  rw [h.slice]
  split
  · exact .panic
  · rename_i src hs
    have h1 := hf src _ _ (h.setStatus .unmatched)
    rw [h.slice] at h1
    exact h1

theorem objTerm_local {A : Ast → Prop} {p : Sem} (h : ObjTerm A p) : Local below p := by
  cases h with
  | base h => exact baseTerm_local h
  | any =>
    refine light_local (withSlice_local fun src c c' h => ?_)
    rw [h.pos]
    split
    · exact .ok ⟨rfl, pushObj_alike h _ _ _ _⟩
    · exact .ok ⟨rfl, h⟩
  | «end» =>
    refine light_local (withSlice_local fun src c c' h => ?_)
    by_cases hp : c.pos = src.items.length
    · rw [if_pos hp, if_pos (h.pos.trans hp)]; exact .ok ⟨rfl, (h.setLen 0).setStatus _⟩
    · rw [if_neg hp, if_neg (fun hq => hp (h.pos.symm.trans hq))]; exact .ok ⟨rfl, h⟩
  | seq vs =>
    refine light_local (withSlice_local fun src c c' h => ?_)
    simp only
    rw [h.pos]
    split
    · split
      · exact .ok ⟨rfl, pushObj_alike h _ _ _ _⟩
      · exact .panic
      · exact .timeout
    · exact .ok ⟨rfl, h⟩
  | objClass vs =>
    refine light_local (withSlice_local fun src c c' h => ?_)
    rw [h.pos]
    split
    · exact .ok ⟨rfl, h⟩
    · split
      · exact .ok ⟨rfl, pushObj_alike h _ _ _ _⟩
      · exact .ok ⟨rfl, h⟩
      · exact .panic
      · exact .timeout
  | objClassN vs =>
    refine light_local (withSlice_local fun src c c' h => ?_)
    rw [h.pos]
    split
    · exact .ok ⟨rfl, h⟩
    · split
      · exact .ok ⟨rfl, h⟩
      · exact .ok ⟨rfl, pushObj_alike h _ _ _ _⟩
      · exact .panic
      · exact .timeout
  | objClassFn fn =>
    refine light_local (withSlice_local fun src c c' h => ?_)
    rw [h.pos]
    split
    · exact .ok ⟨rfl, h⟩
    · split
      · exact .ok ⟨rfl, pushObj_alike h _ _ _ _⟩
      · exact .ok ⟨rfl, h⟩
      · exact .panic
      · exact .timeout

theorem libTerm_local {p : Sem} (h : LibTerm p) : Local below p := by
  rcases h with h | h
  · exact strTerm_local h
  · exact objTerm_local h

end

theorem libTr_local {t : TSem} (h : LibTr t) : LocalT t := by
  intro below c c' asts hc
  cases h
  case toSlice => unfold toSlice; rw [hc.slice]
  all_goals rfl

/-! ### Outcomes and sequences -/

/-- The same kind of end, in contexts that are alike. -/
inductive OutcomeR (below : List Ast) : Outcome → Outcome → Prop where
  | matched {c c' : Ctx} : Alike below c c' → OutcomeR below (.matched c) (.matched c')
  | unmatched : OutcomeR below .unmatched .unmatched
  | failed {c c' : Ctx} {e : Option Err} : Alike below c c' → OutcomeR below (.failed c e) (.failed c' e)
  | panicked {p : Panic} : OutcomeR below (.panicked p) (.panicked p)
  | timedOut : OutcomeR below .timedOut .timedOut

theorem outcome_local {below : List Ast} {x x' : Out PRes} (h : OutR (SameRes below) x x') : OutcomeR below (Outcome.of x) (Outcome.of x') := by
  cases h with
  | panic => exact .panicked
  | timeout => exact .timedOut
  | ok h =>
    rename_i r r'
    obtain ⟨c, e⟩ := r
    obtain ⟨c', e'⟩ := r'
    obtain ⟨h1, h2⟩ := h
    simp only at h1 h2
    subst h1
    cases e' with
    | some e => exact .failed (h2.setStatus _)
    | none =>
      unfold Outcome.of
      simp only [h2.status]
      cases hs : c.status with
      | matched => exact .matched h2
      | unmatched => exact .unmatched
      | error => exact .failed h2

theorem OutcomeR.of_matched {below : List Ast} {c : Ctx} {x r : Outcome} (h : OutcomeR below x r) (hx : x = .matched c) : ∃ c', r = .matched c' ∧ Alike below c c' := by
  cases h with
  | matched h => cases hx; exact ⟨_, rfl, h⟩
  | _ => cases hx

theorem OutcomeR.to_matched {below : List Ast} {c' : Ctx} {x r : Outcome} (h : OutcomeR below x r) (hr : r = .matched c') : ∃ c, x = .matched c ∧ Alike below c c' := by
  cases h with
  | matched h => cases hr; exact ⟨_, rfl, h⟩
  | _ => cases hr

theorem seq_local {below : List Ast} {ps : List Sem} (hp : ∀ p ∈ ps, Local below p) {c c' : Ctx} {r : Outcome} (hs : Seq ps c r) (h : Alike below c c') :
    ∃ r', Seq ps c' r' ∧ OutcomeR below r r' := by
  induction hs generalizing c' with
  | done => exact ⟨_, .done, .matched h⟩
  | step h1 _ ih =>
    obtain ⟨d, h2, h3⟩ := (outcome_local (hp _ (.head _) _ _ h)).of_matched h1
    obtain ⟨r', h4, h5⟩ := ih (fun p hm => hp p (.tail _ hm)) h3
    exact ⟨r', .step h2 h4, h5⟩
  | stop h1 h2 =>
    have h3 := outcome_local (hp _ (.head _) _ _ h)
    rw [h1] at h3
    refine ⟨_, .stop rfl fun d hd => ?_, h3⟩
    obtain ⟨d, h4, _⟩ := h3.to_matched hd
    exact h2 d h4

/-- A local parser keeps the ASTs that are there, and adds the same ones on any stack. -/
theorem local_extends {p : Sem} (h : ∀ below, Local below p) {c o : Ctx} (ho : Outcome.of (p c) = .matched o) : ∃ new, o.stack = c.stack ++ new := by
  have ha : Alike c.stack { c with stack := [] } c := ⟨rfl, rfl, rfl, rfl, rfl, by simp⟩
  obtain ⟨d, _, h2⟩ := (outcome_local (h c.stack _ _ ha)).to_matched ho
  exact ⟨_, h2.stack⟩

theorem seq_extends {ps : List Sem} (h : ∀ p ∈ ps, ∀ below, Local below p) {c o : Ctx} (ho : Seq ps c (.matched o)) : ∃ new, o.stack = c.stack ++ new := by
  have ha : Alike c.stack { c with stack := [] } c := ⟨rfl, rfl, rfl, rfl, rfl, by simp⟩
  obtain ⟨r, hr⟩ := Seq.total ps { c with stack := [] }
  obtain ⟨r', h1, h2⟩ := seq_local (fun p hp => h p hp c.stack) hr ha
  obtain ⟨d, _, h4⟩ := h2.to_matched (h1.det ho)
  exact ⟨_, h4.stack⟩

end Takenoco
