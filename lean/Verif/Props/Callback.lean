import Verif.Lemmas.Callback
import Verif.Model.StrParsers
/-
C51: errors of the implementation callback of `BaseParser`.
-/
namespace Takenoco
open Spec

/-- C51, first part. When the callback fails in a round, the parser returns that error and status `Error`. -/
theorem C51_round_partial (f : ImplFn) (cls : String) (props : List PropItem) (ps : List Sem) (tr : Option (List TSem)) (c d d' o : Ctx) (n k : Nat) (e : Err)
    (hr : Rounds f c.stack.length (decide (.thereExists ∈ props)) ps n (enter cls c) d) (hm : (timesOf props).max < 0 ∨ (n : Int) < (timesOf props).max)
    (hc : Children (decide (.thereExists ∈ props)) ps d k d') (hf : f k c.stack.length { d' with qty := n } = .ok (o, some e)) (fuel : Nat) (hfuel : n < fuel) :
    baseParser fuel cls (some f) props ps tr c = .ok ({ o with status := .error }, some e) := by
  obtain ⟨j, h1, h2, h3⟩ := baseParser_rounds (tr := tr) hr fuel (by omega)
  rw [h3]
  obtain ⟨j', rfl⟩ : ∃ j', j = j' + 1 := ⟨j - 1, by omega⟩
  have hfix := fixStatus_some o e
  rw [parentLoop, iteration_children hc]
  simp [callFn, hf, hfix]

/-- C51, second part. When the callback fails in the final call, after the rounds, the status is `Error`, but the parser returns no error. -/
theorem C51_final_loses_error (f : ImplFn) (cls : String) (props : List PropItem) (ps : List Sem) (tr : Option (List TSem)) (c d o : Ctx) (n : Nat) (e : Err)
    (hr : Rounds f c.stack.length (decide (.thereExists ∈ props)) ps n (enter cls c) d) (hm : (timesOf props).max < 0 ∨ (n : Int) ≤ (timesOf props).max)
    (hend : NoMore f c.stack.length (decide (.thereExists ∈ props)) ps (timesOf props) n d) (hmin : (timesOf props).min ≤ n) (hneg : .negative ∉ props)
    (hf : f (-1) c.stack.length { d with qty := n } = .ok (o, some e)) (fuel : Nat) (hfuel : n < fuel) :
    baseParser fuel cls (some f) props ps tr c = .ok ({ o with status := .error }, none) := by
  obtain ⟨j, h1, h2, h3⟩ := baseParser_rounds (tr := tr) hr fuel (by omega)
  rw [h3]
  have hfix := fixStatus_some o e
  have hd : d.status = .matched := hr.status rfl
  have hloop : parentLoop (decide ((timesOf props).max < 0)) (iteration (some f) (decide (.thereExists ∈ props)) ps c.stack.length) j n d = .ok (.done n d) := by
    cases j with
    | zero =>
      have : ¬ (timesOf props).max < 0 := by omega
      simp [parentLoop, this]
    | succ j =>
      rw [parentLoop]
      cases hend with
      | last h => omega
      | all ha h =>
        obtain ⟨k', hk⟩ := childLoop_seq h 0
        rw [ha, iteration, hk]; rfl
      | any ha hne h =>
        have hl : 0 < ps.length := List.length_pos_iff.2 hne
        rw [ha, iteration, childLoop_choice h 0]
        simp [choiceEnd, hl]
      | callback hc hf ho =>
        rw [iteration_children hc]
        simp [callFn, hf, fixStatus, ho]
  rw [hloop]
  simp only [afterLoop, readProps_eq]
  have h4 : checkMin (timesOf props).min n d = d := by unfold checkMin; rw [if_neg (by omega)]
  rw [hd] at hf
  simp [hneg, h4, negateStatus, hd, callFn, hf, hfix]

/-- C51 does not hold as stated: the error of a callback can get lost. -/
theorem C51_false : ¬ ∀ (f : ImplFn) (cls : String) (props : List PropItem) (ps : List Sem) (tr : Option (List TSem)) (c d o : Ctx) (n : Nat) (k : Int) (e : Err) (fuel : Nat),
    Rounds f c.stack.length (decide (.thereExists ∈ props)) ps n (enter cls c) d → (n : Int) ≤ (timesOf props).max →
    NoMore f c.stack.length (decide (.thereExists ∈ props)) ps (timesOf props) n d → (timesOf props).min ≤ n → .negative ∉ props →
    f k c.stack.length { d with qty := n } = .ok (o, some e) → n < fuel →
    ∃ o', baseParser fuel cls (some f) props ps tr c = .ok (o', some e) := by
  intro h
  let f : ImplFn := fun k _ c => if k = -1 then .ok (c, some (.msg "failed")) else .ok (c, none)
  obtain ⟨o', ho⟩ := h f "x" [] [] none (newStrCtx []) (enter "x" (newStrCtx [])) _ 1 (-1) (.msg "failed") 2
    (.succ (n := 0) (k := 0) (d' := enter "x" (newStrCtx [])) (o := enter "x" (newStrCtx [])) .zero (.all rfl .done) rfl rfl) (by decide) (.last rfl) (by decide) (by simp) rfl (by decide)
  simp [baseParser, readProps, qtyOnce, parentLoop, iteration, childLoop, callFn, f, fixStatus, newStrCtx, afterLoop, checkMin, negateStatus] at ho

/-- A callback that fails in the second round. -/
def failsLater : ImplFn := fun _ _ c => if c.qty = 1 then .ok (c, some (.msg "no")) else .ok (c, none)

example : ∃ o : Ctx, baseParser 5 "two" (some failsLater) [.times ⟨0, -1⟩] [number] none (newStrCtx (b! "123")) = .ok ({ o with status := .error }, some (.msg "no")) :=
  ⟨_, C51_round_partial failsLater "two" [.times ⟨0, -1⟩] [number] none (newStrCtx (b! "123")) _ _ _ 1 1 (.msg "no")
    (.succ .zero (.all rfl (.step rfl .done)) rfl rfl) (by decide) (.all rfl (.step rfl .done)) rfl 5 (by decide)⟩

/-- A callback that fails in the final call. -/
def failsLast : ImplFn := fun k _ c => if k = -1 then .ok (c, some (.msg "no")) else .ok (c, none)

example : ∃ o : Ctx, baseParser 5 "three" (some failsLast) [.times ⟨0, -1⟩] [number] none (newStrCtx (b! "12x")) = .ok ({ o with status := .error }, none) :=
  ⟨_, C51_final_loses_error failsLast "three" [.times ⟨0, -1⟩] [number] none (newStrCtx (b! "12x")) _ _ 2 (.msg "no")
    (.succ (.succ .zero (.all rfl (.step rfl .done)) rfl rfl) (.all rfl (.step rfl .done)) rfl rfl) (by decide)
    (.all rfl (.stop rfl (by simp))) (by decide) (by simp) rfl 5 (by decide)⟩

end Takenoco
