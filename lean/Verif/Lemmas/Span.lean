import Verif.Lemmas.Runs
/-
Parts of byte strings that read as texts.
-/
namespace Takenoco
open Spec

/-- In front of `rest`, the bytes `w` read as the text `t`. -/
inductive Span (rest : Bytes) : Bytes → List Char → Prop where
  | nil : Span rest [] []
  | cons {w₁ w₂ : Bytes} {ch : Char} {t : List Char} : NextChar (w₁ ++ (w₂ ++ rest)) ch w₁.length → Span rest w₂ t → Span rest (w₁ ++ w₂) (ch :: t)

theorem span_single {rest w : Bytes} {ch : Char} (h : NextChar (w ++ rest) ch w.length) : Span rest w [ch] := by
  have := Span.cons (w₁ := w) (rest := rest) (by simpa using h) .nil
  simpa using this

theorem span_append {rest w₁ w₂ : Bytes} {t u : List Char} (h : Span (w₂ ++ rest) w₁ t) (h' : Span rest w₂ u) : Span rest (w₁ ++ w₂) (t ++ u) := by
  induction h with
  | nil => exact h'
  | @cons a b ch t h1 _ ih =>
    rw [List.append_assoc]
    exact .cons (by simpa using h1) ih

theorem span_split {rest : Bytes} {t u : List Char} : ∀ {w : Bytes}, Span rest w (t ++ u) →
    ∃ w₁ w₂, w = w₁ ++ w₂ ∧ Span (w₂ ++ rest) w₁ t ∧ Span rest w₂ u := by
  induction t with
  | nil => exact fun {w} h => ⟨[], w, rfl, .nil, h⟩
  | cons ch t ih =>
    intro w h
    cases h with
    | @cons a b _ _ h1 h2 =>
      obtain ⟨w₁, w₂, rfl, h3, h4⟩ := ih h2
      exact ⟨a ++ w₁, w₂, by simp, .cons (by simpa using h1) h3, h4⟩

theorem span_char {rest w : Bytes} {ch : Char} {t : List Char} (h : Span rest w (ch :: t)) (hc : ch ≠ '�') :
    ∃ w', w = utf8 ch ++ w' ∧ Span rest w' t := by
  cases h with
  | @cons a b _ _ h1 h2 =>
    generalize hs : a ++ (b ++ rest) = s at h1
    generalize hn : a.length = n at h1
    cases h1 with
    | char ch r =>
      have := congrArg (List.take a.length) hs
      rw [List.take_left, hn, List.take_left] at this
      exact ⟨b, by rw [this], h2⟩
    | bad => exact absurd rfl hc

theorem span_utf8s (rest : Bytes) (t : List Char) : Span rest (utf8s t) t := by
  induction t with
  | nil => exact .nil
  | cons ch t ih =>
    rw [utf8s_cons]
    exact .cons (.char ch _) ih

theorem span_reads {s : Bytes} {t : List Char} : Span [] s t ↔ Reads s t := by
  constructor
  · intro h
    induction h with
    | nil => exact .nil
    | cons h1 _ ih => exact .cons (by simpa using h1) (by simpa using ih)
  · intro h
    induction h with
    | nil => exact .nil
    | @cons s ch n t h1 _ ih =>
      have hn := nextChar_le h1
      have e : (s.take n).length = n := by simp; omega
      have := Span.cons (w₁ := s.take n) (w₂ := s.drop n) (rest := []) (ch := ch) (by rw [e]; simpa using h1) ih
      rwa [List.take_append_drop] at this

theorem span_total (s : Bytes) : ∃ t, Span [] s t := by
  obtain ⟨n, hn⟩ : ∃ n, s.length = n := ⟨_, rfl⟩
  induction n using Nat.strongRecOn generalizing s with
  | ind n ih =>
    by_cases hs : s = []
    · subst hs; exact ⟨[], .nil⟩
    · obtain ⟨ch, m, h⟩ := nextChar_total hs
      obtain ⟨t, ht⟩ := ih _ (by subst hn; exact nextChar_drop_lt h) (s.drop m) rfl
      exact ⟨ch :: t, span_reads.2 (.cons h (span_reads.1 ht))⟩

/-- The first character. -/
theorem span_next {rest w : Bytes} {ch : Char} {t : List Char} (h : Span rest w (ch :: t)) : ∃ n, NextChar (w ++ rest) ch n := by
  cases h with
  | @cons a b _ _ h1 h2 => exact ⟨a.length, by simpa using h1⟩

theorem span_ne_nil {rest w : Bytes} {ch : Char} {t : List Char} (h : Span rest w (ch :: t)) : w ≠ [] := by
  cases h with
  | @cons a b _ _ h1 h2 =>
    intro h
    have := List.append_eq_nil_iff.1 h
    rw [this.1] at h1
    have := nextChar_drop_lt h1
    simp at this

theorem span_unique {s : Bytes} {w : Bytes} {t u : List Char} (h : Span s w t) (h' : Span s w u) : t = u := by
  induction h generalizing u with
  | nil =>
    cases u with
    | nil => rfl
    | cons ch u => exact absurd rfl (span_ne_nil h')
  | @cons a b ch t h1 h2 ih =>
    generalize hw : a ++ b = w at h'
    cases h' with
    | nil => exact absurd hw (span_ne_nil (.cons h1 h2))
    | @cons c d ch' u h3 h4 =>
      obtain ⟨rfl, hl⟩ := nextChar_unique (by simpa using h1 : NextChar ((a ++ b) ++ s) _ _) (by rw [hw]; simpa using h3)
      obtain ⟨rfl, rfl⟩ := List.append_inj hw hl
      rw [ih h4]

/-- A text that reads as a run of characters of a set. -/
theorem span_run {S : Char → Prop} {w rest : Bytes} {t : List Char} (h : Span rest w t) (ht : ∀ ch ∈ t, S ch) (hs : ∀ ch n, NextChar rest ch n → ¬ S ch) :
    CharRun S (w ++ rest) w t rest := by
  induction h with
  | nil => exact .stop hs
  | @cons a b ch t h1 _ ih =>
    have h2 := CharRun.next (s := a ++ b ++ rest) (by simpa using h1) (ht ch (by simp)) (w := b) (t := t) (rest := rest)
      (by rw [List.append_assoc, List.drop_left]; exact ih fun c hc => ht c (by simp [hc]))
    rwa [List.append_assoc, List.take_left, ← List.append_assoc] at h2

end Takenoco
