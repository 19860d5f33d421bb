import Verif.Lemmas.Algebra
import Verif.Model.StrTransformers
import Verif.Model.Transformers
/-
Pipelines of transformers that do the same.
-/
namespace Takenoco
open Spec

theorem trans_congr {ts us : List TSem} (ht : ts ≠ []) (hu : us ≠ []) (h : ∀ c asts, applyTrs c ts asts = applyTrs c us asts) (p : Sem) : trans p ts = trans p us := by
  have h1 : variadic ts = some ts := by cases ts with | nil => exact absurd rfl ht | cons _ _ => rfl
  have h2 : variadic us = some us := by cases us with | nil => exact absurd rfl hu | cons _ _ => rfl
  have h3 : applyTransforms (some ts) = applyTransforms (some us) := by
    funext c o
    simp only [applyTransforms, h]
  funext c
  unfold trans
  rw [h1, h2]
  unfold baseParser afterLoop
  rw [h3]

/-- A part of a pipeline is replaced. -/
theorem den_trans_congr {env : Env} {mid mid' : List TSem} (hm : mid ≠ []) (hm' : mid' ≠ []) (h : ∀ c asts, applyTrs c mid asts = applyTrs c mid' asts)
    (g : Gram) (ts us : List Tr) : den env (.trans g (ts ++ mid.map .fn ++ us)) = den env (.trans g (ts ++ mid'.map .fn ++ us)) := by
  rw [den_trans, den_trans]
  refine trans_congr (by simp [hm]) (by simp [hm']) (fun c asts => ?_) _
  simp only [List.map_append, denTr_fns]
  rw [applyTrs_append, applyTrs_append, applyTrs_append, applyTrs_append]
  simp only [h]

theorem concat_concat {c : Ctx} {asts out : List Ast} (h : concat c asts = .ok (out, none)) : concat c out = .ok (out, none) := by
  unfold concat at h
  cases asts with
  | nil => simp only [Out.ok.injEq, Prod.mk.injEq, and_true] at h; subst h; rfl
  | cons a as =>
    simp only at h
    cases hl : concatLoop [] (a :: as) with
    | panic p => rw [hl] at h; cases h
    | timeout => rw [hl] at h; cases h
    | ok r =>
      obtain ⟨s, e⟩ := r
      rw [hl] at h
      cases e with
      | some e => cases h
      | none => simp only [Out.ok.injEq, Prod.mk.injEq, and_true] at h; subst h; rfl

theorem afterConcat_concat (f : Bytes → Ast → Out (List Ast × Option Err)) (c : Ctx) (asts : List Ast) :
    applyTrs c [concat, afterConcat f] asts = applyTrs c [afterConcat f] asts := by
  simp only [applyTrs]
  cases h : concat c asts with
  | panic p => simp only [afterConcat, h]
  | timeout => simp only [afterConcat, h]
  | ok r =>
    obtain ⟨out, e⟩ := r
    cases e with
    | none => simp only [afterConcat, h, concat_concat h]
    | some e =>
      simp only [afterConcat, h]
      unfold concat at h
      cases asts with
      | nil => simp at h
      | cons a as =>
        simp only at h
        cases hl : concatLoop [] (a :: as) with
        | panic p => rw [hl] at h; cases h
        | timeout => rw [hl] at h; cases h
        | ok r =>
          obtain ⟨s, e'⟩ := r
          rw [hl] at h
          cases e' with
          | some e' => simp only [Out.ok.injEq, Prod.mk.injEq] at h; rw [h.1]
          | none => simp at h

theorem concat_twice (c : Ctx) (asts : List Ast) : applyTrs c [concat, concat] asts = applyTrs c [concat] asts := by
  simp only [applyTrs]
  cases h : concat c asts with
  | panic p => rfl
  | timeout => rfl
  | ok r =>
    obtain ⟨out, e⟩ := r
    cases e with
    | none => simp only [concat_concat h]
    | some e => rfl

theorem rewriteHead_twice (f g : Ast → Ast) (c : Ctx) (asts : List Ast) :
    applyTrs c [rewriteHead f, rewriteHead g] asts = applyTrs c [rewriteHead fun a => g (f a)] asts := by cases asts <;> rfl

/-- Rewriting one concatenated string after another. -/
theorem afterConcat_twice (f g : Bytes → Bytes) (c : Ctx) (asts : List Ast) :
    applyTrs c [afterConcat fun s a => .ok ([{ a with val := .str (f s) }], none), afterConcat fun s a => .ok ([{ a with val := .str (g s) }], none)] asts =
      applyTrs c [afterConcat fun s a => .ok ([{ a with val := .str (g (f s)) }], none)] asts := by
  simp only [applyTrs]
  cases h : concat c asts with
  | panic p => simp only [afterConcat, h]
  | timeout => simp only [afterConcat, h]
  | ok r =>
    obtain ⟨out, e⟩ := r
    cases e with
    | some e => simp only [afterConcat, h]
    | none =>
      unfold concat at h
      cases asts with
      | nil => simp only [Out.ok.injEq, Prod.mk.injEq, and_true] at h; subst h; rfl
      | cons a as =>
        simp only at h
        cases hl : concatLoop [] (a :: as) with
        | panic p => rw [hl] at h; cases h
        | timeout => rw [hl] at h; cases h
        | ok r =>
          obtain ⟨s, e⟩ := r
          rw [hl] at h
          cases e with
          | some e => cases h
          | none =>
            simp only [Out.ok.injEq, Prod.mk.injEq, and_true] at h
            subst h
            simp only [afterConcat, concat, hl]
            rfl

end Takenoco
