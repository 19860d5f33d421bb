import Verif.Lemmas.Longest
/-
C89: the number parsers of package extra take the longest literal. The languages are in Spec/NumberText.
-/
namespace Takenoco
open Spec Extra

section
variable {env : Env}

/-- `IntegerNumberStr`: an optional sign, and a number whose first digit is not `0` unless it is the only one. -/
theorem C89_integer : TakesLongest (den env integerNumberStr) IntegerText ":extra:IntegerNumberStr" := takesLongest lexes_integer integer_lexLong

/-- `FloatNumberStr`: a point or an exponent is there. -/
theorem C89_float : TakesLongest (den env floatNumberStr) PointText ":extra:FloatNumberStr" := takesLongest lexes_float float_lexLong

/-- `NumericStr`: either. -/
theorem C89_numeric : TakesLongest (den env numericStr) NumericText ":extra:NumericStr" := takesLongest lexes_numeric numeric_lexLong

/-- `BinaryNumberStr`, `OctalNumberStr`, `HexNumberStr` -/
theorem C89_radix : TakesLongest (den env binaryNumberStr) (DigitText binDigit) ":extra:BinaryNumberStr" ∧
    TakesLongest (den env octalNumberStr) (DigitText octDigit) ":extra:OctalNumberStr" ∧
    TakesLongest (den env hexNumberStr) (DigitText hexDigit) ":extra:HexNumberStr" := by
  refine ⟨takesLongest ?_ (digits_lexLong binDigit), takesLongest ?_ (digits_lexLong octDigit), takesLongest ?_ (digits_lexLong hexDigit)⟩
  · exact lexes_digitLit byteLike_bin (byteLike_first2 byteLike_bin byteLike_underscore)
  · exact lexes_digitLit byteLike_oct (byteLike_first2 byteLike_oct byteLike_underscore)
  · exact lexes_digitLit
      (byteLike_or (by simp) (byteChoice_cons byteLike_number (byteChoice_cons byteLike_AF (byteChoice_cons byteLike_af byteChoice_nil fun _ => rfl)
        fun _ => rfl) fun b => by simp [hexDigit, Bool.or_assoc]))
      (byteLike_or (by simp) (byteChoice_cons byteLike_number (byteChoice_cons byteLike_AF (byteChoice_cons byteLike_af
        (byteChoice_cons byteLike_underscore byteChoice_nil fun _ => rfl) fun _ => rfl) fun _ => rfl) fun b => by simp [hexDigit, or_, Bool.or_assoc]))

/-- If a beginning of the text is in the language, there is a longest one, and only one: `TakesLongest` says what the parser does for every
text. -/
theorem C89_longest (L : Bytes → Prop) (s : Bytes) (h : ∃ w, L w ∧ w <+: s) : ∃ w, Longest L s w ∧ ∀ v, Longest L s v → v = w := by
  have key : ∀ k, (∃ w, L w ∧ w <+: s ∧ s.length ≤ w.length + k) → ∃ w, Longest L s w := by
    intro k
    induction k with
    | zero =>
      rintro ⟨w, h1, h2, h3⟩
      exact ⟨w, h1, h2, fun v _ hv => Nat.le_trans hv.length_le h3⟩
    | succ k ih =>
      rintro ⟨w, h1, h2, h3⟩
      by_cases hw : ∃ v, L v ∧ v <+: s ∧ w.length < v.length
      · obtain ⟨v, h4, h5, h6⟩ := hw
        exact ih ⟨v, h4, h5, by omega⟩
      · exact ⟨w, h1, h2, fun v hv hp => Nat.le_of_not_lt fun hlt => hw ⟨v, hv, hp, hlt⟩⟩
  obtain ⟨w, h1, h2⟩ := h
  obtain ⟨w, hw⟩ := key s.length ⟨w, h1, h2, by omega⟩
  refine ⟨w, hw, fun v hv => ?_⟩
  have h3 : v.length = w.length := Nat.le_antisymm (hw.2.2 v hv.1 hv.2.1) (hv.2.2 w hw.1 hw.2.1)
  rw [List.prefix_iff_eq_take.1 hv.2.1, List.prefix_iff_eq_take.1 hw.2.1, h3]

/-- So the number parsers match exactly where a literal begins. -/
theorem C89_matches {p : Sem} {L : Bytes → Prop} {cls : String} (h : TakesLongest p L cls) (c : Ctx) (hs : c.status = .matched) (hc : c.pos ≤ c.str.length) :
    (∃ o, Outcome.of (p c) = .matched o) ↔ ∃ w, L w ∧ w <+: c.str.drop c.pos := by
  constructor
  · rintro ⟨o, ho⟩
    refine Classical.byContradiction fun hn => ?_
    rw [(h c hs hc).2 fun w hw hp => hn ⟨w, hw, hp⟩] at ho
    cases ho
  · intro hw
    obtain ⟨w, hw, -⟩ := C89_longest L _ hw
    obtain ⟨o, -, ho, -⟩ := (h c hs hc).1 w hw
    exact ⟨o, ho⟩

end

/-! ### Cases -/

/-- `-1_0.5e`: the `e` has no digits behind it. -/
theorem longest_float : Longest PointText (b! "-1_0.5e") (b! "-1_0.5") := by
  refine ⟨PointText.point (s := b! "-") (w := b! "1_0") (f := b! "5") (e := []) (.sign rfl) (.digits rfl (by decide) ?_) ?_ .none, ⟨b! "e", rfl⟩, ?_⟩
  · intro b hb
    simp only [List.mem_cons, List.not_mem_nil, or_false] at hb
    rcases hb with rfl | rfl
    · exact .inr rfl
    · exact .inl rfl
  · intro b hb
    simp only [List.mem_cons, List.not_mem_nil, or_false] at hb
    subst hb
    exact .inl rfl
  · intro v hv hp
    obtain ⟨r, hr⟩ := hp
    obtain ⟨n, h1, h2⟩ := float_lexLong.long r hv
    rw [hr, show Lex.float (b! "-1_0.5e") = some 6 by decide] at h1
    cases h1
    exact h2

example : Consumes (den noEnv floatNumberStr) (newStrCtx (b! "-1_0.5e")) (b! "-1_0.5") ":extra:FloatNumberStr" (b! "-10.5") :=
  (C89_float (env := noEnv) (newStrCtx (b! "-1_0.5e")) rfl (by decide)).1 _ longest_float

/-- In `12` there is no number with a point or an exponent, but an integer. -/
example : (∀ w, PointText w → ¬ w <+: b! "12") ∧ ∃ w, NumericText w ∧ w <+: b! "12" := by
  refine ⟨fun w hw ⟨r, hr⟩ => ?_, b! "12", .inl (.mk (s := []) .none (.digits rfl (by decide) ?_)), List.prefix_rfl⟩
  · obtain ⟨n, h1, -⟩ := float_lexLong.long r hw
    rw [hr] at h1
    cases h1
  · intro b hb
    simp only [List.mem_cons, List.not_mem_nil, or_false] at hb
    subst hb
    exact .inl rfl

/-- `007`: the first `0` alone is an integer. -/
example : IntegerText (b! "0") ∧ ¬ IntegerText (b! "00") := by
  refine ⟨.mk (s := []) .none (.zero (u := []) fun b hb => by cases hb), fun h => ?_⟩
  have := (integer_lexLong.long [] h)
  obtain ⟨n, h1, h2⟩ := this
  rw [show Lex.integer (b! "00" ++ []) = some 1 by decide] at h1
  cases h1
  exact absurd h2 (by decide)

#print axioms C89_integer
#print axioms C89_float
#print axioms C89_numeric
#print axioms C89_radix
#print axioms C89_longest
#print axioms C89_matches

end Takenoco
