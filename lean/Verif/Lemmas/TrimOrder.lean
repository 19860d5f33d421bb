import Verif.Lemmas.CsvParse
import Verif.Props.Transformers
/-
The order in which the two ends of a text are trimmed does not matter.
-/
namespace Takenoco
open Spec

/-- No white space character ends with the byte that starts the long ones. -/
theorem blank_last {ch : Char} (h : Blank ch) : (utf8 ch).getLast? ≠ some 0xc2 := by
  unfold Blank at h
  simp only [List.mem_cons, List.not_mem_nil, or_false] at h
  rcases h with rfl | rfl | rfl | rfl | rfl | rfl | rfl | rfl <;> decide

theorem blanks_last {ws : List Char} (h : ∀ ch ∈ ws, Blank ch) (x : Bytes) : utf8s ws ≠ x ++ [0xc2] := by
  induction ws using list_rev_ind with
  | nil => simp [utf8s]
  | snoc ws ch _ =>
    intro he
    have h1 : (utf8s (ws ++ [ch])).getLast? = some 0xc2 := by rw [he]; simp
    rw [utf8s_append, utf8s_single] at h1
    have hne : utf8 ch ≠ [] := by
      rcases blank_utf8 (h ch (by simp)) with ⟨b, hb, _⟩ | ⟨b, hb, _⟩ <;> rw [hb] <;> simp
    rw [List.getLast?_append, List.getLast?_eq_some_getLast hne, Option.some_or, ← List.getLast?_eq_some_getLast hne] at h1
    exact blank_last (h ch (by simp)) h1

theorem not_endsBlank_append {ws : List Char} (hws : ∀ ch ∈ ws, Blank ch) {t : Bytes} (ht : t ≠ []) (h : ¬ EndsBlank t) : ¬ EndsBlank (utf8s ws ++ t) := by
  rintro ⟨ch, init, hb, he⟩
  rcases List.append_eq_append_iff.mp he with ⟨as, h1, h2⟩ | ⟨bs, h1, h2⟩
  · exact h ⟨ch, as, hb, h2⟩
  · rcases blank_utf8 hb with ⟨b, hc, _⟩ | ⟨b, hc, _⟩
    · rw [hc] at h2
      cases bs with
      | nil => exact h ⟨ch, [], hb, by rw [hc]; exact h2.symm⟩
      | cons x xs => simp at h2; exact ht h2.2.2
    · rw [hc] at h2
      cases bs with
      | nil => exact h ⟨ch, [], hb, by rw [hc]; exact h2.symm⟩
      | cons x xs =>
        cases xs with
        | nil => simp at h2; exact blanks_last hws init (by rw [h1, ← h2.1])
        | cons y ys => simp at h2; exact ht h2.2.2.2

/-- Trimming the start first comes to the same. -/
theorem trimRight_trimLeft (s : Bytes) : trimRight (trimLeft s) = trimBoth s := by
  obtain ⟨⟨ws, h1, h2⟩, h3⟩ := trimLeft_spec s
  obtain ⟨⟨ws', h4, h5⟩, h6⟩ := trimRight_spec (trimLeft s)
  unfold trimBoth
  generalize trimRight (trimLeft s) = r at *
  by_cases hr : r = []
  · subst hr
    have : TrimmedEnd s [] := by
      refine ⟨⟨ws ++ ws', ?_, ?_⟩, h6⟩
      · intro ch hc; rcases List.mem_append.mp hc with hc | hc
        · exact h1 ch hc
        · exact h4 ch hc
      · rw [utf8s_append, List.nil_append]; rw [List.nil_append] at h5; rw [← h5]; exact h2
    rw [trimmedEnd_unique (trimRight_spec s) this]
    rfl
  · have he : TrimmedEnd s (utf8s ws ++ r) :=
      ⟨⟨ws', h4, by rw [List.append_assoc, ← h5]; exact h2⟩, not_endsBlank_append h1 hr h6⟩
    rw [trimmedEnd_unique (trimRight_spec s) he]
    refine C23_trimmedStart_unique ⟨⟨ws, h1, rfl⟩, ?_⟩ (trimLeft_spec _)
    rintro ⟨ch, rest, hb, hc⟩
    exact h3 ⟨ch, rest ++ utf8s ws', hb, by rw [h5, hc, List.append_assoc]⟩

end Takenoco
