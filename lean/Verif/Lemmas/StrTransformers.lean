import Verif.Model.StrTransformers
import Verif.Spec.Transform
import Verif.Lemmas.WordBoundary
/-
The string transformers: concatenation and trimming.
-/
namespace Takenoco
open Spec

theorem concatLoop_texts {asts : List Ast} {vs : List Bytes} (h : Texts asts vs) (acc : Bytes) :
    concatLoop acc asts = .ok (acc ++ vs.flatten, none) := by
  induction h generalizing acc with
  | nil => simp [concatLoop]
  | cons h1 h2 _ ih =>
    unfold concatLoop
    rw [if_neg (by simp [h1]), h2]
    simp only [asStr]
    rw [ih]; simp

theorem concat_texts {asts : List Ast} {vs : List Bytes} (h : Texts asts vs) (c : Ctx) :
    concat c asts = .ok ([summary asts .string (.str vs.flatten)], none) := by
  cases h with
  | nil => rfl
  | cons h1 h2 h3 =>
    unfold concat
    simp only
    rw [concatLoop_texts (.cons h1 h2 h3)]
    rfl

theorem concatLoop_bad {asts : List Ast} (hw : ∀ a ∈ asts, a.ty = .string → ∃ s, a.val = .str s)
    {b : Ast} {as bs : List Ast} (he : asts = as ++ b :: bs) (has : ∀ a ∈ as, a.ty = .string) (hb : b.ty ≠ .string) (acc : Bytes) :
    concatLoop acc asts = .ok ([], some (.concatBadType b.ty)) := by
  induction as generalizing asts acc with
  | nil => subst he; unfold concatLoop; rw [List.nil_append]; simp only [if_pos hb]
  | cons a as ih =>
    subst he
    obtain ⟨s, hs⟩ := hw a (by simp) (has a (by simp))
    rw [List.cons_append]
    unfold concatLoop
    rw [if_neg (by simp [has a (by simp)]), hs]
    simp only [asStr]
    exact ih (fun x hx => hw x (by simp at hx ⊢; exact .inr hx)) rfl (fun x hx => has x (by simp [hx])) _

theorem concat_bad {asts : List Ast} (hw : ∀ a ∈ asts, a.ty = .string → ∃ s, a.val = .str s)
    {b : Ast} {as bs : List Ast} (he : asts = as ++ b :: bs) (has : ∀ a ∈ as, a.ty = .string) (hb : b.ty ≠ .string) (c : Ctx) :
    concat c asts = .ok ([], some (.concatBadType b.ty)) := by
  cases asts with
  | nil => simp at he
  | cons a as' =>
    unfold concat
    simp only
    rw [concatLoop_bad hw he has hb]

/-- Split at the first AST that is not a string. -/
theorem firstBad {asts : List Ast} (h : ∃ a ∈ asts, a.ty ≠ .string) :
    ∃ as b bs, asts = as ++ b :: bs ∧ (∀ a ∈ as, a.ty = .string) ∧ b.ty ≠ .string := by
  induction asts with
  | nil => obtain ⟨a, ha, _⟩ := h; simp at ha
  | cons x xs ih =>
    by_cases hx : x.ty = .string
    · obtain ⟨a, ha, hb⟩ := h
      rcases List.mem_cons.1 ha with rfl | ha
      · exact absurd hx hb
      · obtain ⟨as, b, bs, h1, h2, h3⟩ := ih ⟨a, ha, hb⟩
        exact ⟨x :: as, b, bs, by rw [h1]; rfl, by simpa [hx] using h2, h3⟩
    · exact ⟨[], x, xs, rfl, by simp, hx⟩

theorem texts_of {asts : List Ast} (h : ∀ a ∈ asts, a.ty = .string ∧ ∃ s, a.val = .str s) : ∃ vs, Texts asts vs := by
  induction asts with
  | nil => exact ⟨_, .nil⟩
  | cons a as ih =>
    obtain ⟨vs, hv⟩ := ih (fun x hx => h x (by simp [hx]))
    obtain ⟨h1, s, h2⟩ := h a (by simp)
    exact ⟨_, .cons h1 h2 hv⟩

theorem texts_ty {asts : List Ast} {vs : List Bytes} (h : Texts asts vs) : ∀ a ∈ asts, a.ty = .string := by
  induction h with
  | nil => simp
  | cons h _ _ ih => simpa [h] using ih

theorem afterConcat_texts {f : Bytes → Ast → Out (List Ast × Option Err)} {asts : List Ast} {vs : List Bytes}
    (h : Texts asts vs) (c : Ctx) :
    afterConcat f c asts = f vs.flatten (summary asts .string (.str vs.flatten)) := by
  unfold afterConcat
  rw [concat_texts h]
  cases asts <;> rfl

theorem afterConcat_bad {f : Bytes → Ast → Out (List Ast × Option Err)} {asts : List Ast}
    (hw : ∀ a ∈ asts, a.ty = .string → ∃ s, a.val = .str s) (h : ∃ a ∈ asts, a.ty ≠ .string) (c : Ctx) :
    ∃ e, concat c asts = .ok ([], some e) ∧ afterConcat f c asts = .ok ([], some e) := by
  obtain ⟨as, b, bs, h1, h2, h3⟩ := firstBad h
  refine ⟨_, concat_bad hw h1 h2 h3 c, ?_⟩
  unfold afterConcat
  rw [concat_bad hw h1 h2 h3 c]

/-! ### Trimming -/

theorem blank_iff (ch : Char) : Blank ch ↔ inCutset ch.toNat = true := by
  have key : ∀ a : Char, (ch = a ↔ ch.toNat = a.toNat) := fun a => ⟨fun h => by rw [h], char_toNat_inj⟩
  unfold Blank inCutset
  simp only [List.mem_cons, List.not_mem_nil, or_false, Bool.or_eq_true, beq_iff_eq, key]
  simp only [or_assoc]
  rfl

theorem startsBlank_iff (s : Bytes) : StartsBlank s ↔ s ≠ [] ∧ inCutset (decodeRune s).1 = true := by
  constructor
  · rintro ⟨ch, rest, hb, rfl⟩
    refine ⟨fun h => ?_, ?_⟩
    · have := congrArg List.length h
      have := utf8_length_pos ch
      rw [List.length_append] at *; simp only [List.length_nil] at *; omega
    · rw [decode_utf8]; exact (blank_iff ch).1 hb
  · rintro ⟨hs, h⟩
    have hw : DecodesWell s := by
      constructor
      · intro he; rw [he] at h; simp [inCutset, runeError] at h
      · intro he; rw [he] at h; simp [inCutset, runeError] at h
    obtain ⟨ch, rest, rfl⟩ := (decodesWell_iff s).1 hw
    rw [decode_utf8] at h
    exact ⟨ch, rest, (blank_iff ch).2 h, rfl⟩

theorem trimLeftN_spec (k : Nat) (s : Bytes) (hk : s.length ≤ k) : TrimmedStart s (trimLeftN k s) := by
  induction k generalizing s with
  | zero =>
    have : s = [] := List.length_eq_zero_iff.1 (by omega)
    subst this
    exact ⟨⟨[], by simp, rfl⟩, by rw [startsBlank_iff]; simp [trimLeftN]⟩
  | succ k ih =>
    unfold trimLeftN
    by_cases hs : s = []
    · rw [if_pos hs]; subst hs
      exact ⟨⟨[], by simp, rfl⟩, by rw [startsBlank_iff]; simp⟩
    · rw [if_neg hs]
      by_cases hc : inCutset (decodeRune s).1 = true
      · rw [if_pos hc]
        obtain ⟨ch, rest, hb, rfl⟩ := (startsBlank_iff s).2 ⟨hs, hc⟩
        rw [decode_utf8]
        simp only [List.drop_left]
        have hl := utf8_length_pos ch
        rw [List.length_append] at hk
        obtain ⟨⟨ws, h1, h2⟩, h3⟩ := ih rest (by omega)
        refine ⟨⟨ch :: ws, ?_, ?_⟩, h3⟩
        · intro x hx
          rcases List.mem_cons.1 hx with rfl | hx
          · exact hb
          · exact h1 x hx
        · rw [utf8s_cons, List.append_assoc, ← h2]
      · rw [if_neg hc]
        exact ⟨⟨[], by simp, rfl⟩, by rw [startsBlank_iff]; exact fun h => hc h.2⟩

theorem trimLeft_spec (s : Bytes) : TrimmedStart s (trimLeft s) := trimLeftN_spec _ s (Nat.le_refl _)

theorem blank_utf8 {ch : Char} (h : Blank ch) : (∃ b : UInt8, utf8 ch = [b] ∧ b.toNat = ch.toNat ∧ b.toNat < 0x80) ∨
    (∃ b : UInt8, utf8 ch = [0xc2, b] ∧ 0x80 ≤ b.toNat) := by
  unfold Blank at h
  simp only [List.mem_cons, List.not_mem_nil, or_false] at h
  rcases h with rfl | rfl | rfl | rfl | rfl | rfl | rfl | rfl
  all_goals first
    | exact .inl ⟨_, rfl, by decide, by decide⟩
    | exact .inr ⟨_, rfl, by decide⟩

theorem getD_last (x : Bytes) (b : UInt8) : (x ++ [b]).getD ((x ++ [b]).length - 1) 0 = b := by
  simp

theorem decodeLast_blank (x : Bytes) {ch : Char} (h : Blank ch) :
    decodeLastRune (x ++ utf8 ch) = (ch.toNat, (utf8 ch).length) := by
  rcases blank_utf8 h with ⟨b, hb, h1, h2⟩ | ⟨b, hb, h2⟩
  · rw [hb]; unfold decodeLastRune
    simp only
    rw [if_neg (by simp), getD_last, if_pos h2, h1]; rfl
  · rw [hb]; unfold decodeLastRune
    have e : x ++ [0xc2, b] = (x ++ [0xc2]) ++ [b] := by simp
    simp only
    rw [if_neg (by simp), e, getD_last, if_neg (by omega)]
    have hl : (x ++ [0xc2] ++ [b]).length - 1 = x.length + 1 := by simp
    have hg : (x ++ [0xc2] ++ [b]).getD x.length 0 = 0xc2 := by simp
    have hstart : lastStart (x ++ [0xc2] ++ [b]) (x.length + 1) 3 = x.length := by
      unfold lastStart
      rw [hg, if_pos (by decide)]
    rw [hl, hstart]
    have hd : (x ++ [0xc2] ++ [b]).drop x.length = utf8 ch ++ [] := by rw [hb]; simp
    rw [hd, decode_utf8, hb, if_neg (by simp)]

theorem endsBlank_iff (s : Bytes) : EndsBlank s ↔ s ≠ [] ∧ inCutset (decodeLastRune s).1 = true := by
  constructor
  · rintro ⟨ch, init, hb, rfl⟩
    refine ⟨fun h => ?_, ?_⟩
    · have := congrArg List.length h
      have := utf8_length_pos ch
      rw [List.length_append] at *; simp only [List.length_nil] at *; omega
    · rw [decodeLast_blank _ hb]; exact (blank_iff ch).1 hb
  · rintro ⟨hs, h⟩
    induction s using list_rev_ind with
    | nil => exact absurd rfl hs
    | snoc x b _ =>
      unfold decodeLastRune at h
      simp only at h
      rw [if_neg (by simp), getD_last] at h
      by_cases hb : b.toNat < 0x80
      · rw [if_pos hb] at h
        obtain ⟨ch, hch⟩ := exists_char (r := b.toNat) (.inl (by omega))
        refine ⟨ch, x, (blank_iff ch).2 (by rw [hch]; exact h), ?_⟩
        rw [← encode_char, hch, encodeRune_ascii hb]
      · rw [if_neg hb] at h
        generalize lastStart (x ++ [b]) ((x ++ [b]).length - 1) 3 = st at h
        split at h
        · simp [inCutset, runeError] at h
        · rename_i hn
          have hne : (x ++ [b]).drop st ≠ [] := by
            intro he; rw [he] at h; simp [decodeRune, inCutset, runeError] at h
          obtain ⟨ch, rest, hbl, he⟩ := (startsBlank_iff _).2 ⟨hne, h⟩
          rw [he, decode_utf8] at hn
          simp only [Decidable.not_not] at hn
          have hlen := congrArg List.length he
          rw [List.length_drop, List.length_append] at hlen
          have hr : rest = [] := List.length_eq_zero_iff.1 (by rw [List.length_append] at hlen hn; omega)
          refine ⟨ch, (x ++ [b]).take st, hbl, ?_⟩
          rw [hr, List.append_nil] at he
          rw [← he, List.take_append_drop]

theorem trimRightN_spec (k : Nat) (s : Bytes) (hk : s.length ≤ k) : TrimmedEnd s (trimRightN k s) := by
  induction k generalizing s with
  | zero =>
    have : s = [] := List.length_eq_zero_iff.1 (by omega)
    subst this
    exact ⟨⟨[], by simp, rfl⟩, by rw [endsBlank_iff]; simp [trimRightN]⟩
  | succ k ih =>
    unfold trimRightN
    by_cases hs : s = []
    · rw [if_pos hs]; subst hs
      exact ⟨⟨[], by simp, rfl⟩, by rw [endsBlank_iff]; simp⟩
    · rw [if_neg hs]
      by_cases hc : inCutset (decodeLastRune s).1 = true
      · rw [if_pos hc]
        obtain ⟨ch, init, hb, rfl⟩ := (endsBlank_iff s).2 ⟨hs, hc⟩
        rw [decodeLast_blank _ hb]
        have hl := utf8_length_pos ch
        rw [List.length_append] at hk ⊢
        simp only [Nat.add_sub_cancel, List.take_left]
        obtain ⟨⟨ws, h1, h2⟩, h3⟩ := ih init (by omega)
        refine ⟨⟨ws ++ [ch], ?_, ?_⟩, h3⟩
        · intro x hx
          rcases List.mem_append.1 hx with hx | hx
          · exact h1 x hx
          · rw [List.mem_singleton.1 hx]; exact hb
        · rw [utf8s_append, utf8s_single, ← List.append_assoc, ← h2]
      · rw [if_neg hc]
        exact ⟨⟨[], by simp, by simp [utf8s]⟩, by rw [endsBlank_iff]; exact fun h => hc h.2⟩

theorem trimRight_spec (s : Bytes) : TrimmedEnd s (trimRight s) := trimRightN_spec _ s (Nat.le_refl _)

theorem trimBoth_spec (s : Bytes) : Trimmed s (trimBoth s) := by
  obtain ⟨⟨ws', h1, h2⟩, h3⟩ := trimRight_spec s
  obtain ⟨⟨ws, h4, h5⟩, h6⟩ := trimLeft_spec (trimRight s)
  refine ⟨⟨ws, ws', h4, h1, ?_⟩, h6, ?_⟩
  · unfold trimBoth; rw [← h5, ← h2]
  · rintro ⟨ch, init, hb, he⟩
    refine h3 ⟨ch, utf8s ws ++ init, hb, ?_⟩
    rw [List.append_assoc, ← he]; exact h5

theorem trimmedStart_self {s t : Bytes} (h : TrimmedStart s t) (hs : ¬ StartsBlank s) : t = s := by
  obtain ⟨⟨ws, h1, h2⟩, _⟩ := h
  cases ws with
  | nil => exact h2.symm
  | cons ch ws =>
    refine absurd ⟨ch, utf8s ws ++ t, h1 ch (by simp), ?_⟩ hs
    rw [h2, utf8s_cons, List.append_assoc]

theorem trimmedEnd_self {s t : Bytes} (h : TrimmedEnd s t) (hs : ¬ EndsBlank s) : t = s := by
  obtain ⟨⟨ws, h1, h2⟩, _⟩ := h
  induction ws using list_rev_ind with
  | nil => rw [h2]; simp [utf8s]
  | snoc ws ch _ =>
    refine absurd ⟨ch, t ++ utf8s ws, h1 ch (by simp), ?_⟩ hs
    rw [h2, utf8s_append, utf8s_single, List.append_assoc]

theorem trimLeft_idem (s : Bytes) : trimLeft (trimLeft s) = trimLeft s :=
  trimmedStart_self (trimLeft_spec _) (trimLeft_spec s).2
theorem trimRight_idem (s : Bytes) : trimRight (trimRight s) = trimRight s :=
  trimmedEnd_self (trimRight_spec _) (trimRight_spec s).2
theorem trimBoth_idem (s : Bytes) : trimBoth (trimBoth s) = trimBoth s := by
  have h := (trimBoth_spec s).2
  have h1 : trimRight (trimBoth s) = trimBoth s := trimmedEnd_self (trimRight_spec _) h.2
  show trimLeft (trimRight (trimBoth s)) = _
  rw [h1]
  exact trimmedStart_self (trimLeft_spec _) h.1

end Takenoco
