import Verif.Lemmas.FloatText
import Verif.Lemmas.Extra
import Verif.Props.Literals
/-
The texts of the number parsers of package extra, as `ParseFloat` sees them.
-/
namespace Takenoco
open Spec Extra

theorem nu_add (s : Bytes) (a b : Nat) : withoutUnderscores (s.take (a + b)) = withoutUnderscores (s.take a) ++ withoutUnderscores ((s.drop a).take b) := by
  rw [take_add_drop]; unfold withoutUnderscores; rw [List.filter_append]

theorem nu_sign {s : Bytes} {n : Nat} (h : (Lex.byte isSign).opt s = some n) : ∃ neg, SignText (withoutUnderscores (s.take n)) neg := by
  unfold Lex.opt Lex.byte at h
  cases s with
  | nil => cases h; exact ⟨_, .none⟩
  | cons b s =>
    simp only at h
    by_cases hb : isSign b = true
    · rw [if_pos hb] at h
      cases h
      simp only [isSign, Bool.or_eq_true, beq_iff_eq] at hb
      rcases hb with rfl | rfl
      · exact ⟨_, .plus⟩
      · exact ⟨_, .minus⟩
    · rw [if_neg hb] at h
      cases h
      exact ⟨_, .none⟩

theorem nu_run (s : Bytes) {n : Nat} (h : Lex.run (or_ isDec) s = some n) : Decimals (withoutUnderscores (s.take n)) := by
  unfold Lex.run at h
  cases h
  rw [take_takeWhile]
  intro b hb
  unfold withoutUnderscores at hb
  obtain ⟨h1, h2⟩ := List.mem_filter.1 hb
  have := List.all_eq_true.1 (List.all_takeWhile (p := or_ isDec) (l := s)) b h1
  simp only [or_, Bool.or_eq_true, beq_iff_eq] at this
  rcases this with h | rfl
  · exact h
  · cases h2

theorem nu_underscores (s : Bytes) {n : Nat} (h : Lex.run (· == 0x5f) s = some n) : withoutUnderscores (s.take n) = [] := by
  unfold Lex.run at h
  cases h
  rw [take_takeWhile]
  unfold withoutUnderscores
  rw [List.filter_eq_nil_iff]
  intro b hb
  have := List.all_eq_true.1 (List.all_takeWhile (p := fun b : UInt8 => b == 0x5f) (l := s)) b hb
  simp only [beq_iff_eq] at this
  subst this
  decide

theorem nu_byte {B : UInt8 → Bool} {s : Bytes} {n : Nat} (hB : B 0x5f = false) (h : Lex.byte B s = some n) :
    ∃ b, B b = true ∧ withoutUnderscores (s.take n) = [b] := by
  obtain ⟨rfl, b, s', rfl, hb⟩ := lex_byte_some.1 h
  refine ⟨b, hb, ?_⟩
  have : b ≠ 0x5f := by rintro rfl; rw [hB] at hb; cases hb
  simp [withoutUnderscores, this]

theorem nu_digits {s : Bytes} {n : Nat} (h : Lex.seq (Lex.byte isDec) (Lex.run (or_ isDec)) s = some n) :
    Decimals (withoutUnderscores (s.take n)) ∧ withoutUnderscores (s.take n) ≠ [] := by
  obtain ⟨a, b, h1, h2, rfl⟩ := lex_seq_some.1 h
  obtain ⟨d, hd, e⟩ := nu_byte (by decide) h1
  rw [nu_add, e]
  refine ⟨?_, by simp⟩
  intro x hx
  rcases List.mem_cons.1 hx with rfl | hx
  · exact hd
  · exact nu_run _ h2 x hx

theorem nu_nat {s : Bytes} {n : Nat} (h : Lex.nat s = some n) : Decimals (withoutUnderscores (s.take n)) ∧ withoutUnderscores (s.take n) ≠ [] := by
  rcases lex_alt_some.1 h with h | ⟨_, h⟩
  · obtain ⟨a, b, h1, h2, rfl⟩ := lex_seq_some.1 h
    obtain ⟨d, hd, e⟩ := nu_byte (by decide) h1
    rw [nu_add, e, nu_underscores _ h2]
    simp only [beq_iff_eq] at hd
    subst hd
    exact ⟨by intro b hb; simp at hb; subst hb; rfl, by simp⟩
  · exact nu_digits h

theorem nu_expo {s : Bytes} {n : Nat} (h : Lex.expo s = some n) : ∃ e, ExponentText (withoutUnderscores (s.take n)) e := by
  obtain ⟨a, b, h1, h2, rfl⟩ := lex_seq_some.1 h
  obtain ⟨a', b', h3, h4, rfl⟩ := lex_seq_some.1 h2
  obtain ⟨x, hx, e⟩ := nu_byte (by decide) h1
  obtain ⟨neg, hs⟩ := nu_sign h3
  obtain ⟨hd, hne⟩ := nu_digits h4
  rw [nu_add, nu_add, e]
  have : x = 0x65 ∨ x = 0x45 := by simp at hx; tauto
  have h := ExponentText.exp this hs hd hne
  rw [List.cons_append] at h
  exact ⟨_, h⟩

theorem nu_expo_opt {s : Bytes} {n : Nat} (h : Lex.expo.opt s = some n) : ∃ e, ExponentText (withoutUnderscores (s.take n)) e := by
  unfold Lex.opt at h
  cases hx : Lex.expo s with
  | none => rw [hx] at h; cases h; exact ⟨_, .none⟩
  | some k => rw [hx] at h; cases h; exact nu_expo hx

theorem nu_dot {s : Bytes} {n : Nat} (h : Lex.byte (· == 0x2e) s = some n) : withoutUnderscores (s.take n) = b! "." := by
  obtain ⟨x, hx, e⟩ := nu_byte (by decide) h
  simp only [beq_iff_eq] at hx
  rw [e, hx]

theorem run1_run {B : UInt8 → Bool} {s : Bytes} {n : Nat} (h : Lex.run1 B s = some n) : Lex.run B s = some n ∧ 0 < n := by
  unfold Lex.run1 at h
  cases s with
  | nil => cases h
  | cons b s =>
    simp only at h
    by_cases hb : B b = true
    · rw [if_pos hb] at h
      cases h
      exact ⟨by simp [Lex.run, hb], by omega⟩
    · rw [if_neg hb] at h; cases h

/-- What is left of the text of a number without its underscores, if digits are left. -/
def NumberValue (w : Bytes) : Prop := ∃ s neg m n k t e, SignText s neg ∧ MantissaText m n k ∧ ExponentText t e ∧ withoutUnderscores w = s ++ m ++ t

/-- A point with underscores only. -/
def BarePoint (w : Bytes) : Prop := ∃ s neg u t e, SignText s neg ∧ u ≠ [] ∧ (∀ b ∈ u, b = 0x5f) ∧ ExponentText t e ∧
  s ++ b! "." ++ u <+: w ∧ withoutUnderscores w = s ++ b! "." ++ t

theorem sign_text_take {s : Bytes} {n : Nat} (h : (Lex.byte isSign).opt s = some n) : withoutUnderscores (s.take n) = s.take n := by
  unfold Lex.opt Lex.byte at h
  cases s with
  | nil => cases h; rfl
  | cons b s =>
    simp only at h
    by_cases hb : isSign b = true
    · rw [if_pos hb] at h
      cases h
      simp only [isSign, Bool.or_eq_true, beq_iff_eq] at hb
      rcases hb with rfl | rfl <;> rfl
    · rw [if_neg hb] at h
      cases h
      rfl

theorem numeric_text {s : Bytes} {n : Nat} (h : Lex.numeric s = some n) : NumberValue (s.take n) ∨ BarePoint (s.take n) := by
  obtain ⟨a, b, h1, h2, rfl⟩ := lex_seq_some.1 h
  obtain ⟨b1, b2, h3, h4, rfl⟩ := lex_seq_some.1 h2
  obtain ⟨neg, hs⟩ := nu_sign h1
  obtain ⟨e, he⟩ := nu_expo_opt h4
  rcases lex_alt_some.1 h3 with h3 | ⟨_, h3⟩
  · obtain ⟨i, f, h5, h6, rfl⟩ := lex_seq_some.1 h3
    obtain ⟨hi, hine⟩ := nu_nat h5
    left
    unfold Lex.opt at h6
    cases hx : Lex.seq (Lex.byte (· == 0x2e)) (Lex.run (or_ isDec)) (((s.drop a).drop i)) with
    | none =>
      rw [hx] at h6; cases h6
      refine ⟨_, neg, _, _, _, _, e, hs, .whole hi hine, he, ?_⟩
      rw [nu_add, nu_add, List.append_assoc]
      rfl
    | some j =>
      rw [hx] at h6; cases h6
      obtain ⟨p, q, h7, h8, rfl⟩ := lex_seq_some.1 hx
      refine ⟨_, neg, _, _, _, _, e, hs, .point hi (nu_run _ h8) (by simp [hine]), he, ?_⟩
      rw [nu_add, nu_add, nu_add, nu_add, nu_dot h7]
      simp
  · obtain ⟨p, q, h7, h8, rfl⟩ := lex_seq_some.1 h3
    obtain ⟨h9, hq⟩ := run1_run h8
    have hrun := nu_run _ h9
    obtain ⟨rfl, x, s', hsx, hxb⟩ := lex_byte_some.1 h7
    simp only [beq_iff_eq] at hxb
    subst hxb
    have hsplit : withoutUnderscores (s.take (a + (1 + q + b2))) = withoutUnderscores (s.take a) ++ (b! "." ++ withoutUnderscores (((s.drop a).drop 1).take q)) ++
        withoutUnderscores (((s.drop a).drop (1 + q)).take b2) := by
      rw [nu_add, nu_add, nu_add, nu_dot h7]
      simp
    by_cases hz : withoutUnderscores (((s.drop a).drop 1).take q) = []
    · right
      rw [hz, List.append_nil] at hsplit
      refine ⟨_, neg, ((s.drop a).drop 1).take q, _, e, hs, ?_, ?_, he, ?_, hsplit⟩
      · intro hnil
        unfold Lex.run1 at h8
        cases hd : (s.drop a).drop 1 with
        | nil => rw [hd] at h8; cases h8
        | cons y ys =>
          rw [hd] at hnil
          obtain ⟨q', rfl⟩ : ∃ q', q = q' + 1 := ⟨q - 1, by omega⟩
          simp at hnil
      · intro b hb
        by_contra hne
        have : b ∈ withoutUnderscores (((s.drop a).drop 1).take q) := List.mem_filter.2 ⟨hb, by simpa using hne⟩
        rw [hz] at this
        cases this
      · rw [sign_text_take h1, take_add_drop s a, List.append_assoc]
        refine (List.prefix_append_right_inj _).2 ?_
        rw [hsx]
        simp only [Nat.add_assoc]
        rw [Nat.add_comm 1 (q + b2), List.take_succ_cons]
        simp [List.prefix_take_iff, List.take_prefix]
    · left
      refine ⟨_, neg, _, _, _, _, e, hs, .point (ip := []) (fun _ h => by cases h) hrun (by simpa using hz), he, ?_⟩
      rw [hsplit]
      simp

theorem integer_text {s : Bytes} {n : Nat} (h : Lex.integer s = some n) : NumberValue (s.take n) := by
  obtain ⟨a, b, h1, h2, rfl⟩ := lex_seq_some.1 h
  obtain ⟨neg, hs⟩ := nu_sign h1
  obtain ⟨hi, hine⟩ := nu_nat h2
  refine ⟨_, neg, _, _, _, [], _, hs, .whole hi hine, .none, ?_⟩
  rw [nu_add, List.append_nil]

end Takenoco
