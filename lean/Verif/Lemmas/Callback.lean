import Verif.Lemmas.Base
import Verif.Spec.Callback
/-
`baseParser` with a callback.
-/
namespace Takenoco
open Spec

theorem fixStatus_some (o : Ctx) (e : Err) : fixStatus o (some e) = { o with status := .error } := by
  obtain ⟨_, _, _, _, _, _, st, _, _⟩ := o
  cases st <;> rfl

theorem childLoop_all {ps : List Sem} {c c' : Ctx} (h : Seq ps c (.matched c')) (k : Nat) : childLoop false ps k c = .ok (.fell (k + ps.length) c') := by
  generalize hr : Outcome.matched c' = r at h
  induction h generalizing k with
  | done => cases hr; rfl
  | @step p ps c c1 r hp _ ih =>
    simp only [childLoop]
    rw [Spec.Outcome.of_eq_matched hp]
    simp only [fixStatus, Option.isSome_none, Bool.false_eq_true, false_and, if_false, Spec.Outcome.of_matched_status hp]
    rw [ih (k + 1) hr, List.length_cons]
    congr 2; omega
  | stop _ hr' => exact absurd hr.symm (hr' _)

theorem iteration_children {any : Bool} {ps : List Sem} {d d' : Ctx} {k : Nat} (h : Children any ps d k d') (f : ImplFn) (b n : Nat) :
    iteration (some f) any ps b n d = match callFn (some f) k b { d' with qty := n } with
      | .panic p => .panic p
      | .timeout => .timeout
      | .ok (out, err) =>
        match out.status with
        | .error => .ok (.ret out err)
        | .unmatched => .ok (.brk d)
        | .matched => .ok (.next out) := by
  cases h with
  | all h1 h2 => subst h1; simp only [iteration]; rw [childLoop_all h2 0]; simp only [Nat.zero_add]; rfl
  | one h1 h2 => subst h1; simp only [iteration]; rw [childLoop_choice h2 0]; simp [choiceEnd]; rfl
  | none h1 h2 => subst h1 h2; rfl

theorem Spec.Rounds.status {f : ImplFn} {b : Nat} {any : Bool} {ps : List Sem} {n : Nat} {c d : Ctx} (h : Rounds f b any ps n c d)
    (hc : c.status = .matched) : d.status = .matched := by
  cases h with
  | zero => exact hc
  | succ _ _ _ h => exact h

theorem parentLoop_rounds {f : ImplFn} {b : Nat} {any : Bool} {ps : List Sem} {n : Nat} {c d : Ctx} (h : Rounds f b any ps n c d) (u : Bool) (k : Nat) :
    parentLoop u (iteration (some f) any ps b) (n + k) 0 c = parentLoop u (iteration (some f) any ps b) k n d := by
  induction h generalizing k with
  | zero => rw [Nat.zero_add]
  | @succ n j c d d' o _ h2 h3 h4 ih =>
    rw [show n + 1 + k = n + (k + 1) by omega, ih (k + 1), parentLoop, iteration_children h2]
    simp [callFn, h3, fixStatus, h4]

theorem readProps_eq (props : List PropItem) : readProps props =
    { negative := decide (.negative ∈ props), thereExists := decide (.thereExists ∈ props), rewind := decide (.rewind ∈ props), qty := timesOf props } := by
  have key : ∀ (l : List PropItem) (g : Flags), l.foldl Flags.read g =
      { negative := g.negative || decide (.negative ∈ l), thereExists := g.thereExists || decide (.thereExists ∈ l),
        rewind := g.rewind || decide (.rewind ∈ l),
        qty := ((l.filterMap timesItem).getLast?).getD g.qty } := by
    intro l
    induction l with
    | nil => intro g; simp
    | cons x l ih =>
      intro g
      rw [List.foldl_cons, ih]
      cases x with
      | times t =>
        simp only [Flags.read, List.filterMap_cons, List.mem_cons, reduceCtorEq, false_or]
        simp only [timesItem]
        cases hl : l.filterMap timesItem <;> simp [List.getLast?_eq_some_getLast]
      | _ => simp [Flags.read, timesItem]
  rw [readProps, key]
  simp [timesOf, qtyOnce]

theorem baseParser_rounds {f : ImplFn} {props : List PropItem} {ps : List Sem} {n : Nat} {c d : Ctx} {cls : String} {tr : Option (List TSem)}
    (h : Rounds f c.stack.length (decide (.thereExists ∈ props)) ps n (enter cls c) d) (fuel : Nat)
    (hn : (timesOf props).max < 0 ∧ n ≤ fuel ∨ (n : Int) ≤ (timesOf props).max) :
    ∃ k, ((timesOf props).max < 0 → k = fuel - n) ∧ (0 ≤ (timesOf props).max → k = ((timesOf props).max - n).toNat) ∧
      baseParser fuel cls (some f) props ps tr c =
      match parentLoop (decide ((timesOf props).max < 0)) (iteration (some f) (decide (.thereExists ∈ props)) ps c.stack.length) k n d with
      | .panic p => .panic p
      | .timeout => .timeout
      | .ok (.ret o e) => .ok (o, e)
      | .ok (.done count out) => afterLoop (readProps props) (some f) tr { c with cls := cls } count out := by
  refine ⟨(if (timesOf props).max < 0 then fuel else (timesOf props).max.toNat) - n, fun h => by rw [if_pos h], fun h => by rw [if_neg (by omega)]; omega, ?_⟩
  rw [← parentLoop_rounds h]
  have : n + ((if (timesOf props).max < 0 then fuel else (timesOf props).max.toNat) - n) = if (timesOf props).max < 0 then fuel else (timesOf props).max.toNat := by
    split <;> omega
  rw [this]
  unfold baseParser
  rw [readProps_eq]
  by_cases hm : (timesOf props).max < 0
  · simp [hm, enter]; rfl
  · simp [hm, enter]; rfl

end Takenoco
