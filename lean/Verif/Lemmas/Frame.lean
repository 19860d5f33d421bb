import Verif.Lemmas.LibTerms
/-
Invariants of everything a parser returns, matched or not: the source and the tag are kept, and an error
value comes with status error.
-/
namespace Takenoco
open Spec

/-- Same source string, source slice and tag. -/
def Same (a b : Ctx) : Prop := b.str = a.str ∧ b.slice = a.slice ∧ b.tag = a.tag

theorem Same.refl (a : Ctx) : Same a a := ⟨rfl, rfl, rfl⟩
theorem Same.trans {a b c : Ctx} (h : Same a b) (h' : Same b c) : Same a c :=
  ⟨h'.1.trans h.1, h'.2.1.trans h.2.1, h'.2.2.trans h.2.2⟩

/-- The parser keeps source and tag, whatever it returns. -/
def Frames (p : Sem) : Prop := ∀ c o e, p c = .ok (o, e) → Same c o

/-- The same for a callback. -/
def FramesF (f : ImplFn) : Prop := ∀ k b c o e, f k b c = .ok (o, e) → Same c o

theorem fixStatus_same (o : Ctx) (e : Option Err) : Same o (fixStatus o e) := by
  unfold fixStatus; split <;> exact ⟨rfl, rfl, rfl⟩

theorem childLoop_same (ex : Bool) (ps : List Sem) (hps : ∀ p ∈ ps, Frames p) (k : Nat) (c : Ctx) :
    (∀ k' o, childLoop ex ps k c = .ok (.fell k' o) → Same c o) ∧
    (∀ o e, childLoop ex ps k c = .ok (.ret o e) → Same c o) := by
  induction ps generalizing k c with
  | nil =>
    refine ⟨?_, by simp [childLoop]⟩
    intro k' o h
    simp [childLoop] at h
    obtain ⟨_, rfl⟩ := h
    exact .refl _
  | cons p ps ih =>
    have ih := ih (fun q hq => hps q (by simp [hq]))
    cases hpc : p c with
    | panic x => simp [childLoop, hpc]
    | timeout => simp [childLoop, hpc]
    | ok oe =>
      obtain ⟨o, e⟩ := oe
      have h1 : Same c (fixStatus o e) := (hps p (by simp) c o e hpc).trans (fixStatus_same o e)
      cases hs : (fixStatus o e).status with
      | error =>
        refine ⟨by simp [childLoop, hpc, hs], ?_⟩
        intro o' e' h
        simp [childLoop, hpc, hs] at h
        rw [← h.1]; exact h1
      | unmatched =>
        cases ex with
        | false => simp [childLoop, hpc, hs]
        | true => simpa [childLoop, hpc, hs] using ih k c
      | matched =>
        cases ex with
        | true =>
          refine ⟨?_, by simp [childLoop, hpc, hs]⟩
          intro k' o' h
          simp [childLoop, hpc, hs] at h
          rw [← h.2]; exact h1
        | false =>
          have := ih (k + 1) (fixStatus o e)
          refine ⟨fun k' o' h => ?_, fun o' e' h => ?_⟩
          · exact h1.trans (this.1 k' o' (by simpa [childLoop, hpc, hs] using h))
          · exact h1.trans (this.2 o' e' (by simpa [childLoop, hpc, hs] using h))

theorem callFn_same (fn : Option ImplFn) (hf : ∀ f, fn = some f → FramesF f) (k : Int) (b : Nat) (c o : Ctx)
    (e : Option Err) (h : callFn fn k b c = .ok (o, e)) : Same c o := by
  unfold callFn at h
  split at h
  · simp at h; rw [← h.1]; exact .refl _
  · rename_i f
    split at h
    · simp at h
    · simp at h
    · rename_i o' e' hfc
      simp at h
      rw [← h.1]
      exact (hf f rfl k b c o' e' hfc).trans (fixStatus_same _ _)

theorem iteration_same (fn : Option ImplFn) (hf : ∀ f, fn = some f → FramesF f)
    (ex : Bool) (ps : List Sem) (hps : ∀ p ∈ ps, Frames p) (b k : Nat) (c : Ctx) :
    (∀ o, iteration fn ex ps b k c = .ok (.next o) → Same c o) ∧
    (∀ o, iteration fn ex ps b k c = .ok (.brk o) → Same c o) ∧
    (∀ o e, iteration fn ex ps b k c = .ok (.ret o e) → Same c o) := by
  obtain ⟨h1, h2⟩ := childLoop_same ex ps hps 0 c
  unfold iteration
  cases hc : childLoop ex ps 0 c with
  | panic x => simp
  | timeout => simp
  | ok ce =>
    cases ce with
    | ret o e =>
      refine ⟨by simp, by simp, ?_⟩
      intro o' e' h
      simp at h; rw [← h.1]; exact h2 _ _ hc
    | unmatched => exact ⟨by simp, fun o h => by simp at h; rw [← h]; exact .refl _, by simp⟩
    | fell k' o =>
      have h1 := h1 k' o hc
      simp only
      split
      · exact ⟨by simp, fun o h => by simp at h; rw [← h]; exact .refl _, by simp⟩
      · cases hcf : callFn fn k' b { o with qty := k } with
        | panic x => simp
        | timeout => simp
        | ok oe =>
          obtain ⟨o', e'⟩ := oe
          have h3 : Same c o' := by
            have : Same c { o with qty := k } := h1
            exact this.trans (callFn_same fn hf _ _ _ _ _ hcf)
          cases hs : o'.status with
          | error =>
            refine ⟨by simp [hs], by simp [hs], ?_⟩
            intro o'' e'' h
            simp [hs] at h
            rw [← h.1]; exact h3
          | unmatched => exact ⟨by simp [hs], fun o h => by simp [hs] at h; rw [← h]; exact .refl _, by simp [hs]⟩
          | matched => exact ⟨fun o h => by simp [hs] at h; rw [← h]; exact h3, by simp [hs], by simp [hs]⟩

theorem parentLoop_same (fn : Option ImplFn) (hf : ∀ f, fn = some f → FramesF f)
    (ex : Bool) (ps : List Sem) (hps : ∀ p ∈ ps, Frames p) (b : Nat) (u : Bool) (m k : Nat) (c : Ctx) :
    (∀ n o, parentLoop u (iteration fn ex ps b) m k c = .ok (.done n o) → Same c o) ∧
    (∀ o e, parentLoop u (iteration fn ex ps b) m k c = .ok (.ret o e) → Same c o) := by
  induction m generalizing k c with
  | zero =>
    unfold parentLoop
    split
    · simp
    · refine ⟨?_, by simp⟩
      intro n o h
      simp at h; rw [← h.2]; exact .refl _
  | succ m ih =>
    obtain ⟨h1, h2, h3⟩ := iteration_same fn hf ex ps hps b k c
    unfold parentLoop
    cases hi : iteration fn ex ps b k c with
    | panic x => simp
    | timeout => simp
    | ok ie =>
      cases ie with
      | ret o e => exact ⟨by simp, fun o' e' h => by simp at h; rw [← h.1]; exact h3 _ _ hi⟩
      | brk o => exact ⟨fun n o' h => by simp at h; rw [← h.2]; exact h2 _ hi, by simp⟩
      | next o =>
        have := ih (k + 1) o
        exact ⟨fun n o' h => (h1 o hi).trans (this.1 n o' h), fun o' e' h => (h1 o hi).trans (this.2 o' e' h)⟩

theorem applyTransforms_same (tr : Option (List TSem)) (c o o' : Ctx) (e : Option Err)
    (h : applyTransforms tr c o = .ok (o', e)) : Same o o' := by
  unfold applyTransforms at h
  split at h
  · simp at h; rw [← h.1]; exact .refl _
  · split at h
    · simp at h
    · split at h
      · simp at h
      · simp at h
      · simp at h; rw [← h.1]; exact ⟨rfl, rfl, rfl⟩
      · simp at h; rw [← h.1]; exact ⟨rfl, rfl, rfl⟩

theorem baseParser_frames (fuel : Nat) (cls : String) (fn : Option ImplFn) (props : List PropItem)
    (ps : List Sem) (tr : Option (List TSem)) (hf : ∀ f, fn = some f → FramesF f) (hps : ∀ p ∈ ps, Frames p) :
    Frames (baseParser fuel cls fn props ps tr) := by
  intro c o e h
  unfold baseParser at h
  simp only at h
  generalize (if decide ((readProps props).qty.max < 0) = true then fuel else (readProps props).qty.max.toNat) = m at h
  generalize decide ((readProps props).qty.max < 0) = u at h
  obtain ⟨h1, h2⟩ := parentLoop_same fn hf (readProps props).thereExists ps hps c.stack.length u m 0
    { c with cls := cls, status := .matched }
  have h0 : Same c { c with cls := cls, status := .matched } := ⟨rfl, rfl, rfl⟩
  split at h
  · simp at h
  · simp at h
  · rename_i o' e' hl
    simp at h
    rw [← h.1]; exact h0.trans (h2 _ _ hl)
  · rename_i n out hl
    have h1 := h0.trans (h1 _ _ hl)
    unfold afterLoop at h
    simp only at h
    obtain ⟨st, hst⟩ : ∃ st, negateStatus (readProps props).negative (checkMin (readProps props).qty.min n out) =
        { out with status := st } := by
      unfold negateStatus checkMin
      repeat' split
      all_goals first | exact ⟨_, rfl⟩ | exact ⟨out.status, rfl⟩
    rw [hst] at h
    split at h
    · simp at h
      rw [← h.1]; exact h1
    · split at h
      · simp at h
      · simp at h
      · rename_i o' e' hcf
        have h3 : Same c o' := by
          have : Same c { out with status := st, qty := n } := h1
          exact this.trans (callFn_same fn hf _ _ _ _ _ hcf)
        split at h
        · simp at h
          rw [← h.1]; exact h3
        · have := applyTransforms_same _ _ _ _ _ h
          split at this
          · exact this
          · exact h3.trans this

theorem lookBehindLoop_same (neg : Bool) (q : Sem) (hq : Frames q) (c : Ctx) (k : Nat) (i : Int) (o : Ctx)
    (e : Option Err) (h : lookBehindLoop neg q c k i = .ok (o, e)) : Same c o := by
  induction k generalizing i with
  | zero =>
    simp [lookBehindLoop] at h
    rw [← h.1]; exact ⟨rfl, rfl, rfl⟩
  | succ k ih =>
    unfold lookBehindLoop at h
    split at h
    · exact ih _ h
    · split at h
      · simp at h
      · simp at h
      · rename_i o' e' hqc
        simp at h
        have := hq _ _ _ hqc
        rw [← h.1]; exact this
      · rename_i o' hqc
        have := hq _ _ _ hqc
        split at h
        · split at h
          · simp at h; rw [← h.1]; exact this
          · simp at h; rw [← h.1]; exact .refl _
        · exact ih _ h

theorem lightParser_frames (cls : String) (p : Sem) (hp : Frames p) : Frames (lightParser cls p) := by
  intro c o e h
  unfold lightParser at h
  split at h
  · simp at h
  · simp at h
  · rename_i o' e' hpc
    simp at h
    have h1 := (hp _ _ _ hpc).trans (fixStatus_same o' e')
    rw [← h.1]
    split <;> exact h1

theorem matchFn_frames (n : Int) (cases : List ((List Ast → Bool) × List TSem)) : Frames (matchFn n cases) := by
  induction cases with
  | nil => intro c o e h; simp [matchFn] at h; rw [← h.1]; exact ⟨rfl, rfl, rfl⟩
  | cons gc cases ih =>
    intro c o e h
    unfold matchFn at h
    split at h
    · simp only at h
      split at h
      · simp at h
      · split at h
        · simp at h
        · simp at h
        · simp at h; rw [← h.1]; exact ⟨rfl, rfl, rfl⟩
        · simp at h; rw [← h.1]; exact ⟨rfl, rfl, rfl⟩
    · exact ih c o e h

theorem frames_closed : Closed Frames (fun _ => True) FramesF (fun _ => True) True where
  timeout := fun c o e h => by simp at h
  grouping := trivial
  base := fun fuel cls fn props ps tr h1 h2 _ => baseParser_frames fuel cls fn props ps tr h1 h2
  light := lightParser_frames
  behind := fun neg a b ps _ h2 c o e h =>
    lookBehindLoop_same neg _ (baseParser_frames _ _ none _ ps none (by simp) h2) c _ _ o e h
  matchP := fun _ n cases _ => lightParser_frames _ _ (matchFn_frames n cases)

theorem TermRes.frames {Bad : Panic → Prop} {A : Ast → Prop} {L : Nat} {c o : Ctx} {e : Option Err}
    (h : TermRes Bad A L c (.ok (o, e))) : Same c o := by
  cases h <;> exact ⟨rfl, rfl, rfl⟩

/-! ### Error values come with status error -/

/-- A returned error comes with status error. -/
def Marks (p : Sem) : Prop := ∀ c o e, p c = .ok (o, some e) → o.status = .error

theorem applyTransforms_marks (tr : Option (List TSem)) (c o o' : Ctx) (e : Err)
    (h : applyTransforms tr c o = .ok (o', some e)) : o'.status = .error := by
  unfold applyTransforms at h
  split at h
  · simp at h
  · split at h
    · simp at h
    · split at h
      · simp at h
      · simp at h
      · simp at h; rw [← h.1]
      · simp at h

theorem baseParser_marks (fuel : Nat) (cls : String) (fn : Option ImplFn) (props : List PropItem)
    (ps : List Sem) (tr : Option (List TSem)) : Marks (baseParser fuel cls fn props ps tr) := by
  intro c o e h
  unfold baseParser at h
  simp only at h
  split at h
  · simp at h
  · simp at h
  · rename_i o' e' hl
    simp at h
    rw [← h.1]; exact parentLoop_ret_status hl
  · unfold afterLoop at h
    simp only at h
    split at h
    · simp at h
    · split at h
      · simp at h
      · simp at h
      · split at h
        · simp at h
        · exact applyTransforms_marks _ _ _ _ _ h

theorem lightParser_marks (cls : String) (p : Sem) : Marks (lightParser cls p) := by
  intro c o e h
  unfold lightParser at h
  split at h
  · simp at h
  · simp at h
  · rename_i o' e' hpc
    simp at h
    obtain ⟨h, rfl⟩ := h
    have : (fixStatus o' (some e)).status = .error := by
      unfold fixStatus; split
      · rfl
      · rename_i hh; simp at hh; exact hh
    rw [this] at h
    simp at h
    rw [← h]; exact this

theorem lookBehindLoop_marks (neg : Bool) (q : Sem) (hq : Marks q) (c : Ctx) (k : Nat) (i : Int) (o : Ctx)
    (e : Err) (h : lookBehindLoop neg q c k i = .ok (o, some e)) : o.status = .error := by
  induction k generalizing i with
  | zero => simp [lookBehindLoop] at h
  | succ k ih =>
    unfold lookBehindLoop at h
    split at h
    · exact ih _ h
    · split at h
      · simp at h
      · simp at h
      · rename_i o' e' hqc
        simp at h
        obtain ⟨rfl, rfl⟩ := h
        exact hq _ _ _ hqc
      · split at h
        · split at h <;> simp at h
        · exact ih _ h

theorem marks_closed : Closed Marks (fun _ => True) (fun _ => True) (fun _ => True) True where
  timeout := fun c o e h => by simp at h
  grouping := trivial
  base := fun fuel cls fn props ps tr _ _ _ => baseParser_marks fuel cls fn props ps tr
  light := fun cls p _ => lightParser_marks cls p
  behind := fun neg a b ps _ _ c o e h =>
    lookBehindLoop_marks neg _ (baseParser_marks _ _ none _ ps none) c _ _ o e h
  matchP := fun _ n cases _ => lightParser_marks _ _

theorem TermRes.marks {Bad : Panic → Prop} {A : Ast → Prop} {L : Nat} {c o : Ctx} {e : Err}
    (h : TermRes Bad A L c (.ok (o, some e))) : o.status = .error := by
  cases h; rfl

end Takenoco
