import Verif.Model.Examples.Minimal
import Verif.Lemmas.Extra
import Verif.Lemmas.FormulaTotal
/-
The minimal parser of the introduction on nonempty texts of letters, and on all others.
-/
namespace Takenoco
open Spec

/-- One or more letters up to another byte or the end. -/
theorem word_hits (env : Env) (pre w rest : Bytes) (hne : w ≠ []) (hw : ∀ b ∈ w, isLetter b = true) (hr : ∀ b r, rest = b :: r → isLetter b = false) :
    Hits (den env (.trans (Gram.plus [.prim alpha]) [.fn concat])) pre w rest (fun l => ∃ a, l = [a] ∧ a.val = .str w) := by
  have hlen : (List.takeWhile isLetter (w ++ rest)).length = w.length := by
    rw [List.takeWhile_append_of_pos (by simpa using hw)]
    cases rest with
    | nil => simp
    | cons b r => rw [List.takeWhile_cons_of_neg (by rw [hr b r rfl]; simp), List.append_nil]
  have hL : Lex.run1 isLetter (w ++ rest) = some w.length := by
    cases w with
    | nil => exact absurd rfl hne
    | cons b w =>
      have hb := hw b (by simp)
      rw [List.cons_append] at hlen ⊢
      rw [List.takeWhile_cons_of_pos hb] at hlen
      unfold Lex.run1
      simp only [hb, if_true]
      exact congrArg some hlen
  have h := ((lexes_plus (byteLike_alpha (env := env))) pre (w ++ rest)).1 _ hL
  have hh := h.2
  rw [List.take_left, List.drop_left] at hh
  refine trans_hits (by simp) hh fun c' l hl => ?_
  obtain ⟨vs, hv, he⟩ := hl
  refine ⟨_, by simp only [List.map, denTr_fn, applyTrs, concat_texts hv]; rfl, _, rfl, ?_⟩
  have hu : noUnderscore w = w := by
    rw [noUnderscore_eq]
    unfold withoutUnderscores
    rw [List.filter_eq_self]
    intro b hb
    have := hw b hb
    simp only [bne_iff_ne, ne_eq]
    rintro rfl
    exact absurd this (by decide)
  rw [hu] at he
  cases l <;> simp [summary, he]

theorem word_misses (env : Env) (pre s : Bytes) (hs : ∀ b r, s = b :: r → isLetter b = false) :
    Misses (den env (.trans (Gram.plus [.prim alpha]) [.fn concat])) pre s := by
  refine trans_misses (((lexes_plus (byteLike_alpha (env := env))) pre s).2 ?_)
  cases s with
  | nil => rfl
  | cons b s => unfold Lex.run1; simp only [hs b s rfl]; rfl

theorem minimal_hits {s : Bytes} (hne : s ≠ []) (hw : ∀ b ∈ s, isLetter b = true) :
    Hits (den noEnv Minimal.program) [] s [] (fun l => ∃ a, l = [a] ∧ a.val = .str s) := by
  have h := flat_hits (env := noEnv) (gs := [.prim startP, .trans (Gram.plus [.prim alpha]) [.fn concat], .prim endS])
    (SeqHits.cons (w1 := []) (startP_hits _) (SeqHits.cons (w1 := s) (word_hits noEnv _ s [] hne hw (by simp)) (SeqHits.single (endS_hits _))))
  simp only [List.nil_append, List.append_nil] at h
  refine h.mono fun l hl => ?_
  obtain ⟨_, _, rfl, rfl, _, _, rfl, ⟨a, rfl, ha⟩, rfl⟩ := hl
  exact ⟨a, rfl, ha⟩

theorem minimal_misses {s : Bytes} (h : ¬ (s ≠ [] ∧ ∀ b ∈ s, isLetter b = true)) : Misses (den noEnv Minimal.program) [] s := by
  have hs : s = [] ++ s := rfl
  have hsplit : s = s.takeWhile isLetter ++ s.dropWhile isLetter := List.takeWhile_append_dropWhile.symm
  have hstop : ∀ b r, s.dropWhile isLetter = b :: r → isLetter b = false := fun b r he => by
    have := List.head?_dropWhile_not isLetter s
    rw [he] at this
    simpa using this
  have hlet : ∀ b ∈ s.takeWhile isLetter, isLetter b = true := fun b hb => by
    have := List.all_takeWhile (p := isLetter) (l := s)
    rw [List.all_eq_true] at this
    exact this b hb
  refine flat_misses (gs := [.prim startP, .trans (Gram.plus [.prim alpha]) [.fn concat], .prim endS]) ?_
  rw [hs]
  refine .tail (startP_hits _) ?_
  by_cases h0 : s.takeWhile isLetter = []
  · refine .head (word_misses noEnv _ s ?_)
    rw [h0, List.nil_append] at hsplit
    rw [hsplit]; exact hstop
  · rw [hsplit]
    refine .tail (word_hits noEnv _ _ _ h0 (hlet) hstop) (.head (endS_misses fun h1 => h ?_))
    rw [h1, List.append_nil] at hsplit
    rw [hsplit]
    exact ⟨h0, hlet⟩

end Takenoco
