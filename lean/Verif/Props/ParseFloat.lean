import Verif.Lemmas.FloatLit
import Verif.Props.Transformers
/-
C84: what `ParseFloat` makes of decimal numbers, and of what the number parsers of package extra find.
-/
namespace Takenoco
open Spec Extra

/-- A decimal number below the limit becomes the nearest float64, a larger one is an error of its own kind. (The text must not have
9000 digits and an exponent of more than 100000 at the same time, see `C84_digits_false`.) -/
theorem C84_decimal {s m t : Bytes} {neg : Bool} {n k : Nat} {e : Int} (hs : SignText s neg) (hm : MantissaText m n k) (ht : ExponentText t e)
    (hshort : e.natAbs < 100000 ∨ m.length ≤ 9000) :
    ((n : ℚ) * 10 ^ (e - k) < tooLarge → ∃ b, NearestFloat (n * 10 ^ (e - k)) b ∧ parseFloat (s ++ m ++ t) = .ok (signedBits neg b)) ∧
    (tooLarge ≤ (n : ℚ) * 10 ^ (e - k) → parseFloat (s ++ m ++ t) = .error .range) := by
  obtain ⟨e', he'⟩ := readsExponent_of ht
  obtain ⟨b, hb, hp⟩ := parseFloat_text hs hm he'
  rw [hp]
  rcases closest_same hm he' hshort hb with ⟨h1, h2, h3⟩ | ⟨h1, h2⟩
  · exact ⟨fun _ => ⟨b, h3, by rw [if_neg (by omega)]; rfl⟩, fun h => absurd h1 (not_lt.2 h)⟩
  · exact ⟨fun h => absurd h (not_lt.2 h1), fun _ => by rw [if_pos h2]⟩

/-- The bits are determined: no two float64s are nearest. -/
theorem C84_unique {x : ℚ} {b b' : Nat} (h : NearestFloat x b) (h' : NearestFloat x b') : b = b' := h.unique h'

/-- A text of digits, points, signs and `e`s that is not a decimal number is an error. -/
theorem C84_syntax {w : Bytes} (hw : ∀ b ∈ w, isDec b = true ∨ b ∈ b! ".eE+-")
    (h : ∀ s neg m n k t e, SignText s neg → MantissaText m n k → ExponentText t e → w ≠ s ++ m ++ t) : parseFloat w = .error .syntax := by
  have hp : ∀ b ∈ w, plainByte b = true := fun b hb => by
    rcases hw b hb with h | h
    · exact isDec_plain h
    · revert h; simp only [List.mem_cons, List.not_mem_nil, or_false]; rintro (rfl | rfl | rfl | rfl | rfl) <;> rfl
  unfold parseFloat
  rw [special_plain hp]
  cases hr : readFloat w with
  | none => rfl
  | some f =>
    obtain ⟨s, neg, m, n, k, t, e, h1, h2, h3, h4⟩ := readFloat_inv hp hr
    exact absurd h4 (h s neg m n k t e h1 h2 h3)

/-- `inf` and `infinity`, also with a sign, and `nan`, in small or capital letters, are no numbers but values of float64. -/
theorem C84_special {w : Bytes} :
    (∀ s neg, SignText s neg → InLetters (b! "inf") w ∨ InLetters (b! "infinity") w → parseFloat (s ++ w) = .ok (signedBits neg infinityBits)) ∧
    (InLetters (b! "nan") w → ∃ bits, parseFloat w = .ok bits ∧ infinityBits < bits.toNat % 2 ^ 63) := by
  constructor
  · intro s neg hs hw
    have hhead : takeSign w = (false, w) := by
      rcases hw with h | h <;> exact h.head (by decide) (by decide)
    have hsign : takeSign (s ++ w) = (neg, w) := by
      cases hs with
      | none => exact hhead
      | plus => rfl
      | minus => rfl
    unfold parseFloat specialFloat
    simp only [hsign]
    rw [if_pos (by rcases hw with h | h <;> simp [h.lower (by decide)])]
    cases neg <;> rfl
  · intro hw
    refine ⟨0x7ff8000000000001, ?_, by decide⟩
    unfold parseFloat specialFloat
    simp only [hw.head (by decide) (by decide), hw.lower (by decide)]
    rfl

/-- The transformer: it yields the float64 of the texts put together, or fails. -/
theorem C84_transformer {asts : List Ast} {vs : List Bytes} (h : Texts asts vs) (c : Ctx) :
    (∀ bits, parseFloat vs.flatten = .ok bits → parseFloatT parseFloat c asts = .ok ([summary asts .float (.float bits)], none)) ∧
    (∀ e, parseFloat vs.flatten = .error e → parseFloatT parseFloat c asts = .ok ([], some (.badNumber "ParseFloat" vs.flatten e))) := by
  unfold parseFloatT
  rw [afterConcat_texts h]
  constructor
  · intro bits hb
    simp only [hb]
    cases asts <;> rfl
  · intro e he
    simp only [he]

/-! ### Together with the parsers of C46 and C53 -/

section
variable {env : Env}

theorem trans_float {g : Gram} {c : Ctx} {w v : Bytes} {cls : String} (h : Consumes (den env g) (enter ":base:Trans" c) w cls v) :
    (∀ bits, parseFloat v = .ok bits → YieldsFloat (den env (.trans g [.fn (parseFloatT parseFloat)])) c w bits) ∧
    (∀ e, parseFloat v = .error e → ∃ o, Outcome.of (den env (.trans g [.fn (parseFloatT parseFloat)]) c) =
      .failed o (some (.badNumber "ParseFloat" v e))) := by
  obtain ⟨o, a, h1, h2, h3, h4, h5, _, h7, h6⟩ := h
  have hs := Outcome.of_matched_status h1
  have e1 : den env (.trans g [.fn (parseFloatT parseFloat)]) c = _ := (congrFun (den_trans env g _) c).trans (trans_matched_eq h1)
  have e2 : [Tr.fn (parseFloatT parseFloat)].map (denTr env) = [parseFloatT parseFloat] := by simp [denTr_fn]
  rw [e2] at e1
  have h5 : o.stack = c.stack ++ [a] := h5
  have ht : Texts [a] [v] := .cons h7 h6 .nil
  have key := C84_transformer ht
  simp only [List.flatten_cons, List.flatten_nil, List.append_nil] at key
  constructor
  · intro bits hb
    refine ⟨{ o with qty := 1, stack := c.stack ++ [summary [a] .float (.float bits)] }, summary [a] .float (.float bits), ?_, h2, h3, h4, rfl, rfl, rfl⟩
    rw [e1]
    simp [variadic, applyTransforms, applyTrs, h5, (key _).1 bits hb, Outcome.of, hs]
  · intro e he
    refine ⟨{ o with qty := 1, status := .error }, ?_⟩
    rw [e1]
    simp [variadic, applyTransforms, applyTrs, h5, (key _).2 e he, Outcome.of]

/-- The three parsers of decimal numbers. -/
theorem number_parsers {g : Gram} (hg : g ∈ [integerNumberStr, floatNumberStr, numericStr]) (c : Ctx) (hs : c.status = .matched) (hc : c.pos ≤ c.str.length)
    (o : Ctx) (h : Outcome.of (den env g c) = .matched o) :
    ∃ w, (NumberValue w ∨ BarePoint w) ∧ o.pos = c.pos + w.length ∧ ∀ c' : Ctx, c'.status = .matched → c'.str = c.str → c'.pos = c.pos →
      ∃ cls, Consumes (den env g) c' w cls (withoutUnderscores w) := by
  have fin : ∀ {g0 : Gram} {L : Lex} {name : String}, Lexes (den env g0) L → g = .trans g0 [.fn concat, .fn (changeClassName name)] →
      (∀ s n, L s = some n → NumberValue (s.take n) ∨ BarePoint (s.take n)) →
      ∃ w, (NumberValue w ∨ BarePoint w) ∧ o.pos = c.pos + w.length ∧ ∀ c' : Ctx, c'.status = .matched → c'.str = c.str → c'.pos = c.pos →
        ∃ cls, Consumes (den env g) c' w cls (withoutUnderscores w) := by
    intro g0 L name hL he hv
    subst he
    obtain ⟨n, h1, h2, h3, _⟩ := lexes_matched hL hs hc h
    refine ⟨(c.str.drop c.pos).take n, hv _ _ h1, by rw [h3, List.length_take, Nat.min_eq_left h2], fun c' h4 h5 h6 => ⟨name, ?_⟩⟩
    have := (lexes_consumes (env := env) (name := name) hL c' h4 (by rw [h5, h6]; exact hc)).1 n (by rw [h5, h6]; exact h1)
    rw [h5, h6] at this
    exact this.2
  simp only [List.mem_cons, List.not_mem_nil, or_false] at hg
  rcases hg with rfl | rfl | rfl
  · exact fin lexes_integer rfl fun s n h => .inl (integer_text h)
  · exact fin lexes_float rfl fun s n h => numeric_text (lex_float_numeric h)
  · exact fin lexes_numeric rfl fun s n h => numeric_text h

/-- What the three parsers of decimal numbers find becomes, through `ParseFloat`, the float64 nearest to the number written, or the error
that it is too large; or the text found has no digits but underscores behind its point. Missing for the full property: that the
last case does not occur (`C84_point_false`), and the restriction on very long texts (`C84_digits_false`). -/
theorem C84_literals_partial {g : Gram} (hg : g ∈ [integerNumberStr, floatNumberStr, numericStr]) (c o : Ctx) (hs : c.status = .matched)
    (hc : c.pos ≤ c.str.length) (h : Outcome.of (den env g c) = .matched o) :
    ∃ w, o.pos = c.pos + w.length ∧ w <+: c.str.drop c.pos ∧
      ((∃ s neg m n k t e, SignText s neg ∧ MantissaText m n k ∧ ExponentText t e ∧ withoutUnderscores w = s ++ m ++ t ∧
          (e.natAbs < 100000 ∨ m.length ≤ 9000 →
            ((n : ℚ) * 10 ^ (e - k) < tooLarge → ∃ b, NearestFloat (n * 10 ^ (e - k)) b ∧
              YieldsFloat (den env (.trans g [.fn (parseFloatT parseFloat)])) c w (signedBits neg b)) ∧
            (tooLarge ≤ (n : ℚ) * 10 ^ (e - k) → ∃ o', Outcome.of (den env (.trans g [.fn (parseFloatT parseFloat)]) c) =
              .failed o' (some (.badNumber "ParseFloat" (s ++ m ++ t) .range))))) ∨
        (∃ s neg u t e, SignText s neg ∧ u ≠ [] ∧ (∀ b ∈ u, b = 0x5f) ∧ ExponentText t e ∧ s ++ b! "." ++ u <+: w ∧
          withoutUnderscores w = s ++ b! "." ++ t ∧ ∃ o', Outcome.of (den env (.trans g [.fn (parseFloatT parseFloat)]) c) =
            .failed o' (some (.badNumber "ParseFloat" (s ++ b! "." ++ t) .syntax)))) := by
  obtain ⟨w, hw, hpos, hcons⟩ := number_parsers hg c hs hc o h
  obtain ⟨cls, hcon⟩ := hcons (enter ":base:Trans" c) rfl rfl rfl
  have hpre : w <+: c.str.drop c.pos := by
    obtain ⟨o', a, _, _, h3, _⟩ := hcon
    have h3 : c.str.drop c.pos = _ := h3
    exact ⟨_, h3.symm⟩
  obtain ⟨t1, t2⟩ := trans_float hcon
  refine ⟨w, hpos, hpre, ?_⟩
  rcases hw with ⟨s, neg, m, n, k, t, e, h1, h2, h3, h4⟩ | ⟨s, neg, u, t, e, h1, h2, h3, h4, h5, h6⟩
  · refine .inl ⟨s, neg, m, n, k, t, e, h1, h2, h3, h4, fun hshort => ⟨fun hx => ?_, fun hx => ?_⟩⟩
    · obtain ⟨b, hb, hp⟩ := (C84_decimal h1 h2 h3 hshort).1 hx
      exact ⟨b, hb, t1 _ (by rw [h4]; exact hp)⟩
    · obtain ⟨o', ho'⟩ := t2 _ (by rw [h4]; exact (C84_decimal h1 h2 h3 hshort).2 hx)
      rw [h4] at ho'
      exact ⟨o', ho'⟩
  · refine .inr ⟨s, neg, u, t, e, h1, h2, h3, h4, h5, h6, ?_⟩
    obtain ⟨o', ho'⟩ := t2 .syntax (by rw [h6]; exact parseFloat_bare h1 h4)
    rw [h6] at ho'
    exact ⟨o', ho'⟩

end

/-- `._` is a number for `FloatNumberStr`, but not for `ParseFloat`. -/
theorem C84_point_false : (∃ o, Outcome.of (den noEnv floatNumberStr (newStrCtx (b! "._"))) = .matched o ∧ o.pos = 2) ∧
    ∃ o, Outcome.of (den noEnv (.trans floatNumberStr [.fn (parseFloatT parseFloat)]) (newStrCtx (b! "._"))) =
      .failed o (some (.badNumber "ParseFloat" (b! ".") .syntax)) := by
  obtain ⟨_, o, a, e1, e2, e3, e4, _⟩ :=
    (lexes_consumes (env := noEnv) (name := ":extra:FloatNumberStr") lexes_float (newStrCtx (b! "._")) rfl (by decide)).1 2 rfl
  have h2 := (lexes_consumes (env := noEnv) (name := ":extra:FloatNumberStr") lexes_float (enter ":base:Trans" (newStrCtx (b! "._"))) rfl (by decide)).1 2 rfl
  exact ⟨⟨o, e1, e4⟩, (trans_float h2.2).2 .syntax (by decide)⟩

/-- A one, written with 100000 zeros behind the point and an exponent that makes up for them, is read as zero: of the exponent, digits
behind the fifth are dropped. -/
theorem C84_digits_false : ∃ m t n k e, MantissaText m n k ∧ ExponentText t e ∧ (n : ℚ) * 10 ^ (e - k) = 1 ∧ parseFloat (m ++ t) = .ok 0 ∧
    floatValue 0 = 0 := by
  have hz : ∀ z, digitsValue (List.replicate z 0x30 ++ [0x31]) = 1 := fun z => by
    induction z with
    | zero => rfl
    | succ z ih => rw [List.replicate_succ, List.cons_append, digitsValue_cons, ih]; simp
  have hdec : Decimals (List.replicate 100000 0x30 ++ [0x31]) := fun b hb => by
    rcases List.mem_append.1 hb with hb | hb
    · rw [(List.mem_replicate.1 hb).2]; rfl
    · simp at hb; subst hb; rfl
  have hl : (List.replicate 100000 (0x30 : UInt8) ++ [0x31]).length = 100001 := by rw [List.length_append, List.length_replicate]; rfl
  have hv := hz 100000
  have hm : MantissaText (b! "." ++ (List.replicate 100000 0x30 ++ [0x31])) 1 100001 := by
    generalize List.replicate 100000 (0x30 : UInt8) ++ [0x31] = fp at *
    have := MantissaText.point (ip := []) (fun _ h => by cases h) hdec (by rintro rfl; cases hl)
    rw [List.nil_append, List.nil_append, hv, hl] at this
    exact this
  have ht : ReadsExponent (0x65 :: [] ++ b! "100001") 100001 10000 :=
    ReadsExponent.exp (c := 0x65) (neg := false) (.inl rfl) .none (ds := b! "100001") (by unfold Decimals; decide) (by decide)
  refine ⟨_, _, 1, 100001, 100001, hm, ht.text, by simp, ?_, value_zero⟩
  obtain ⟨b, hb, hp⟩ := parseFloat_text .none hm ht
  have hsmall : ((1 : ℕ) : ℚ) * 10 ^ ((10000 : ℤ) - (100001 : ℕ)) < 2 ^ (-1075 : ℤ) := by
    rw [Nat.cast_one, one_mul]
    refine lt_of_le_of_lt (zpow_le_zpow_right₀ (by norm_num) ?_) ten_pow_small
    norm_num
  have hb0 : b = 0 := hb.unique (closest_zero (mul_nonneg (Nat.cast_nonneg _) (zpow_nonneg (by norm_num) _)) hsmall)
  subst hb0
  rw [if_neg (by decide)] at hp
  exact hp

/-! ### Cases -/

/-- `-1.50e1` -/
example : parseFloat (b! "-1.50e1") = .ok 0xc02e000000000000 := by decide +kernel

/-- Half way between two numbers: the even one. -/
example : parseFloat (b! "9007199254740993") = .ok 0x4340000000000000 := by decide +kernel

/-- What the property says about `-0.1`: the bits of the model are those of the number nearest to a tenth. -/
example : ∃ b, NearestFloat ((digitsValue (b! "01") : ℚ) * 10 ^ (0 - (1 : ℕ) : ℤ)) b ∧ parseFloat (b! "-0.1") = .ok (signedBits true b) := by
  refine (C84_decimal .minus (.point (ip := b! "0") (fp := b! "1") (by unfold Decimals; decide) (by unfold Decimals; decide) (by decide)) .none
    (.inl (by decide))).1 ?_
  have h : (1 : ℚ) ≤ 2 ^ 970 := one_le_pow₀ (by norm_num)
  have h' : (2 : ℚ) ^ 1024 = 2 ^ 54 * 2 ^ 970 := by rw [← pow_add]
  have hd : digitsValue (b! "0" ++ b! "1") = 1 := rfl
  unfold tooLarge
  rw [h', hd]
  clear h'
  generalize (2 : ℚ) ^ 970 = u at *
  norm_num
  linarith

/-- Bits of a tenth. -/
example : parseFloat (b! "-0.1") = .ok (signedBits true 0x3fb999999999999a) := by decide +kernel

/-- Too large by one digit. -/
example : parseFloat (b! "1e309") = .error .range := by decide +kernel

/-- The largest number, and the smallest. -/
example : parseFloat (b! "1.7976931348623157e308") = .ok 0x7fefffffffffffff ∧ parseFloat (b! "5e-324") = .ok 1 := by decide +kernel

/-- `-Inf` -/
example : parseFloat (b! "-Inf") = .ok 0xfff0000000000000 :=
  C84_special.1 _ _ .minus (.inl (.cons (.inr rfl) (.cons (.inl rfl) (.cons (.inl rfl) .nil))))

/-- No digits. -/
example : parseFloat (b! "-.e5") = .error .syntax := by decide +kernel

/-- `1_0.5` through both. -/
example : ∃ o, Outcome.of (den noEnv floatNumberStr (newStrCtx (b! "1_0.5"))) = .matched o ∧ o.pos = 5 := by
  obtain ⟨_, o, _, e1, e2, e3, e4, _⟩ :=
    (lexes_consumes (env := noEnv) (name := ":extra:FloatNumberStr") lexes_float (newStrCtx (b! "1_0.5")) rfl (by decide)).1 5 rfl
  exact ⟨o, e1, e4⟩

end Takenoco
