import Verif.Lemmas.FloatRound
/-
What the model of `strconv.ParseFloat` makes of decimal texts.
-/
namespace Takenoco
open Spec

/-- The bytes of decimal texts. -/
def plainByte (b : UInt8) : Bool := isDec b || b == 0x2e || b == 0x65 || b == 0x45 || b == 0x2b || b == 0x2d

set_option maxRecDepth 4000 in
theorem plainByte_facts : ∀ b : UInt8, plainByte b = true → b ≠ 0x5f ∧ lowerByte b ≠ 0x78 ∧
    (if 0x41 ≤ b ∧ b ≤ 0x5a then b + 0x20 else b) ≠ 0x69 ∧ (if 0x41 ≤ b ∧ b ≤ 0x5a then b + 0x20 else b) ≠ 0x6e := by
  intro b
  have : ∀ n : Fin 256, plainByte (UInt8.ofNat n) = true → UInt8.ofNat n ≠ 0x5f ∧ lowerByte (UInt8.ofNat n) ≠ 0x78 ∧
    (if 0x41 ≤ UInt8.ofNat n ∧ UInt8.ofNat n ≤ 0x5a then UInt8.ofNat n + 0x20 else UInt8.ofNat n) ≠ 0x69 ∧
    (if 0x41 ≤ UInt8.ofNat n ∧ UInt8.ofNat n ≤ 0x5a then UInt8.ofNat n + 0x20 else UInt8.ofNat n) ≠ 0x6e := by decide
  simpa using this ⟨b.toNat, b.toNat_lt⟩

set_option maxRecDepth 4000 in
theorem exp_letter : ∀ b : UInt8, plainByte b = true → (lowerByte b = 0x65 ↔ b = 0x65 ∨ b = 0x45) := by
  intro b
  have : ∀ n : Fin 256, plainByte (UInt8.ofNat n) = true → (lowerByte (UInt8.ofNat n) = 0x65 ↔ UInt8.ofNat n = 0x65 ∨ UInt8.ofNat n = 0x45) := by decide
  simpa using this ⟨b.toNat, b.toNat_lt⟩

theorem isDec_range (b : UInt8) : isDec b = true ↔ 0x30 ≤ b ∧ b ≤ 0x39 := by simp [isDec]

theorem isDec_plain {b : UInt8} (h : isDec b = true) : plainByte b = true := by simp [plainByte, h]

theorem isDec_ne {b : UInt8} (h : isDec b = true) : b ≠ 0x5f ∧ b ≠ 0x2e ∧ b ≠ 0x65 ∧ b ≠ 0x45 ∧ b ≠ 0x2b ∧ b ≠ 0x2d := by
  refine ⟨?_, ?_, ?_, ?_, ?_, ?_⟩ <;> (rintro rfl; cases h)

theorem special_plain {w : Bytes} (h : ∀ b ∈ w, plainByte b = true) : specialFloat w = none := by
  have key : ∀ (t u : Bytes) (x : UInt8), (∀ b ∈ t, plainByte b = true) → (x = 0x69 ∨ x = 0x6e) →
      t.map (fun c : UInt8 => if 0x41 ≤ c ∧ c ≤ 0x5a then c + 0x20 else c) ≠ x :: u := by
    intro t u x ht hx he
    cases t with
    | nil => cases he
    | cons b t =>
      simp only [List.map_cons, List.cons.injEq] at he
      have := plainByte_facts b (ht b (by simp))
      rcases hx with rfl | rfl
      · exact this.2.2.1 he.1
      · exact this.2.2.2 he.1
  have hts : ∀ b ∈ (takeSign w).2, plainByte b = true := by
    intro b hb
    cases w with
    | nil => cases hb
    | cons c cs =>
      simp only [takeSign] at hb
      by_cases h1 : c = 0x2b
      · rw [if_pos h1] at hb; exact h b (List.mem_cons_of_mem _ hb)
      · rw [if_neg h1] at hb
        by_cases h2 : c = 0x2d
        · rw [if_pos h2] at hb; exact h b (List.mem_cons_of_mem _ hb)
        · rw [if_neg h2] at hb; exact h b hb
  unfold specialFloat
  simp only
  rw [if_neg, if_neg]
  · exact key _ _ _ h (.inr rfl)
  · rintro (he | he)
    · exact key _ _ _ hts (.inl rfl) he
    · exact key _ _ _ hts (.inl rfl) he

theorem takeHex_plain {t : Bytes} (h : ∀ b ∈ t, plainByte b = true) : takeHex t = (false, t) := by
  unfold takeHex
  split
  · rename_i c0 c1 c2 cs
    rw [if_neg fun h' => (plainByte_facts c1 (h c1 (by simp))).2.1 h'.2]
  · rfl

/-! ### Digits -/

theorem digitsValue_foldl (ds : Bytes) : ∀ n, ds.foldl (fun n d => n * 10 + (d.toNat - 0x30)) n = n * 10 ^ ds.length + digitsValue ds := by
  induction ds with
  | nil => intro n; simp [digitsValue]
  | cons d ds ih =>
    intro n
    unfold digitsValue
    simp only [List.foldl_cons, List.length_cons]
    rw [ih, ih (0 * 10 + (d.toNat - 0x30)), Nat.pow_succ]
    ring

theorem digitsValue_append (a b : Bytes) : digitsValue (a ++ b) = digitsValue a * 10 ^ b.length + digitsValue b := by
  unfold digitsValue
  rw [List.foldl_append, digitsValue_foldl]
  rfl

theorem digitsValue_cons (d : UInt8) (ds : Bytes) : digitsValue (d :: ds) = (d.toNat - 0x30) * 10 ^ ds.length + digitsValue ds := by
  have := digitsValue_append [d] ds
  simpa [digitsValue] using this

theorem isDec_val {d : UInt8} (h : isDec d = true) : d.toNat - 0x30 ≤ 9 := by
  have := ((isDec_range d).1 h).2
  rw [UInt8.le_iff_toNat_le] at this
  simp at this
  omega

theorem digitsValue_lt {ds : Bytes} (h : Decimals ds) : digitsValue ds < 10 ^ ds.length := by
  induction ds with
  | nil => simp [digitsValue]
  | cons d ds ih =>
    rw [digitsValue_cons, List.length_cons, Nat.pow_succ]
    have h1 := ih fun b hb => h b (by simp [hb])
    have h2 := isDec_val (h d (by simp))
    have := Nat.mul_le_mul_right (10 ^ ds.length) h2
    omega

theorem mantLoop_digit {d : UInt8} (hd : isDec d = true) (st : FloatState) (r : Bytes) : mantLoop false st (d :: r) =
    if d = 0x30 ∧ st.nd = 0 then mantLoop false { st with sawDigits := true, dp := st.dp - 1 } r
    else mantLoop false { st with sawDigits := true, nd := st.nd + 1, mant := st.mant * 10 + (d.toNat - 0x30) } r := by
  have hne := isDec_ne hd
  have hm : mantDigit false d = some (d.toNat - 0x30) := by unfold mantDigit; rw [if_pos ((isDec_range d).1 hd)]
  conv => lhs; unfold mantLoop
  rw [if_neg hne.1, if_neg hne.2.1, hm]
  rfl

theorem mantLoop_digits {ds : Bytes} : Decimals ds → ∀ (st : FloatState) (rest : Bytes), (st.nd = 0 → st.mant = 0) →
    ∃ st', mantLoop false st (ds ++ rest) = mantLoop false st' rest ∧ st'.underscores = st.underscores ∧ st'.sawDot = st.sawDot ∧
      st'.sawDigits = (st.sawDigits || !ds.isEmpty) ∧ st'.mant = st.mant * 10 ^ ds.length + digitsValue ds ∧
      st'.dp - st'.nd = st.dp - st.nd - ds.length ∧ (st'.nd = 0 → st'.mant = 0) := by
  induction ds with
  | nil => intro _ st rest h0; exact ⟨st, rfl, rfl, rfl, by simp, by simp [digitsValue], by simp, h0⟩
  | cons d ds ih =>
    intro hd st rest h0
    rw [List.cons_append, mantLoop_digit (hd d (by simp))]
    by_cases hz : d = 0x30 ∧ st.nd = 0
    · rw [if_pos hz]
      obtain ⟨st', e1, e2, e3, e4, e5, e6, e7⟩ := ih (fun b hb => hd b (by simp [hb]))
        { st with sawDigits := true, dp := st.dp - 1 } rest h0
      refine ⟨st', e1, e2, e3, by rw [e4]; simp, ?_, ?_, e7⟩
      · rw [e5, digitsValue_cons, hz.1]
        simp only [h0 hz.2]
        simp
      · rw [e6]; simp only [List.length_cons]; push_cast; ring
    · rw [if_neg hz]
      obtain ⟨st', e1, e2, e3, e4, e5, e6, e7⟩ := ih (fun b hb => hd b (by simp [hb]))
        { st with sawDigits := true, nd := st.nd + 1, mant := st.mant * 10 + (d.toNat - 0x30) } rest (by simp)
      refine ⟨st', e1, e2, e3, by rw [e4]; simp, ?_, ?_, e7⟩
      · rw [e5, digitsValue_cons, List.length_cons, Nat.pow_succ]
        simp only
        ring
      · rw [e6]; simp only [List.length_cons]; push_cast; ring

/-- The digit loop ends here. -/
def StopsMant (sawDot : Bool) (r : Bytes) : Prop := ∀ c cs, r = c :: cs → c ≠ 0x5f ∧ isDec c = false ∧ (c = 0x2e → sawDot = true)

theorem mantLoop_stop {st : FloatState} {r : Bytes} (h : StopsMant st.sawDot r) : mantLoop false st r = (st, r) := by
  cases r with
  | nil => rfl
  | cons c cs =>
    obtain ⟨h1, h2, h3⟩ := h c cs rfl
    unfold mantLoop
    rw [if_neg h1]
    by_cases hc : c = 0x2e
    · rw [if_pos hc, if_pos (h3 hc)]
    · rw [if_neg hc]
      have : mantDigit false c = none := by
        unfold mantDigit
        rw [if_neg (fun h => by rw [(isDec_range c).2 h] at h2; cases h2), if_neg (by simp)]
      rw [this]

/-! ### Exponents -/

/-- The exponent that is read. -/
def capped (e : Nat) (ds : Bytes) : Nat := ds.foldl (fun e d => if e < 10000 then e * 10 + (d.toNat - 0x30) else e) e

theorem expLoop_digits {ds : Bytes} : Decimals ds → ∀ (e : Nat) (u : Bool) (r : Bytes), expLoop e u (ds ++ r) = expLoop (capped e ds) u r := by
  induction ds with
  | nil => intro _ e u r; rfl
  | cons d ds ih =>
    intro hd e u r
    have hdec := hd d (by simp)
    rw [List.cons_append]
    conv => lhs; unfold expLoop
    rw [if_neg (isDec_ne hdec).1, if_pos ((isDec_range d).1 hdec), ih fun b hb => hd b (by simp [hb])]
    rfl

theorem capped_stay (ds : Bytes) : ∀ e, 10000 ≤ e → capped e ds = e := by
  induction ds with
  | nil => intro e _; rfl
  | cons d ds ih =>
    intro e he
    have : capped e (d :: ds) = capped e ds := by
      unfold capped
      rw [List.foldl_cons, if_neg (by omega)]
    rw [this, ih e he]

theorem capped_cases (ds : Bytes) : ∀ e, capped e ds = e * 10 ^ ds.length + digitsValue ds ∨
    (10000 ≤ capped e ds ∧ capped e ds ≤ e * 10 ^ ds.length + digitsValue ds ∧ 100000 ≤ e * 10 ^ ds.length + digitsValue ds) := by
  induction ds with
  | nil => intro e; left; simp [capped, digitsValue]
  | cons d ds ih =>
    intro e
    have hv : e * 10 ^ (d :: ds).length + digitsValue (d :: ds) = (e * 10 + (d.toNat - 0x30)) * 10 ^ ds.length + digitsValue ds := by
      rw [digitsValue_cons, List.length_cons, Nat.pow_succ]; ring
    rw [hv]
    by_cases he : e < 10000
    · have : capped e (d :: ds) = capped (e * 10 + (d.toNat - 0x30)) ds := by
        unfold capped
        rw [List.foldl_cons, if_pos he]
      rw [this]
      exact ih _
    · right
      rw [capped_stay _ e (by omega)]
      have h1 : 1 ≤ 10 ^ ds.length := Nat.one_le_two_pow.trans (Nat.pow_le_pow_left (by omega) _)
      have h2 := Nat.mul_le_mul_left (e * 10 + (d.toNat - 0x30)) h1
      omega

/-- The exponent that is read from a text. -/
inductive ReadsExponent : Bytes → Int → Int → Prop where
  | none : ReadsExponent [] 0 0
  | exp {c : UInt8} {s ds : Bytes} {neg : Bool} : c = 0x65 ∨ c = 0x45 → SignText s neg → Decimals ds → ds ≠ [] →
      ReadsExponent (c :: s ++ ds) (if neg then -(digitsValue ds : Int) else digitsValue ds) (if neg then -(capped 0 ds : Int) else capped 0 ds)

theorem readsExponent_of {t : Bytes} {e : Int} (h : ExponentText t e) : ∃ e', ReadsExponent t e e' := by
  cases h with
  | none => exact ⟨_, .none⟩
  | exp a b c d => exact ⟨_, .exp a b c d⟩

theorem ReadsExponent.text {t : Bytes} {e e' : Int} (h : ReadsExponent t e e') : ExponentText t e := by
  cases h with
  | none => exact .none
  | exp a b c d => exact .exp a b c d

theorem ReadsExponent.same {t : Bytes} {e e' : Int} (h : ReadsExponent t e e') :
    e' = e ∨ (10000 ≤ e' ∧ e' ≤ e ∧ 100000 ≤ e) ∨ (e' ≤ -10000 ∧ e ≤ e' ∧ e ≤ -100000) := by
  cases h with
  | none => exact .inl rfl
  | @exp c s ds neg _ _ _ _ =>
    have := capped_cases ds 0
    rw [Nat.zero_mul, Nat.zero_add] at this
    cases neg
    · simp only [Bool.false_eq_true, if_false]; omega
    · simp only [if_true]; omega

/-- Neither a sign nor the end. -/
theorem takeSign_sign {s t : Bytes} {neg : Bool} (h : SignText s neg) (ht : ∀ c cs, t = c :: cs → c ≠ 0x2b ∧ c ≠ 0x2d) : takeSign (s ++ t) = (neg, t) := by
  cases h with
  | none =>
    cases t with
    | nil => rfl
    | cons c cs =>
      obtain ⟨h1, h2⟩ := ht c cs rfl
      simp only [List.nil_append, takeSign]
      rw [if_neg h1, if_neg h2]
  | plus => rfl
  | minus => rfl

theorem signText_plain {s : Bytes} {neg : Bool} (h : SignText s neg) : ∀ b ∈ s, plainByte b = true := by
  cases h <;> simp [plainByte]

theorem decimals_plain {ds : Bytes} (h : Decimals ds) : ∀ b ∈ ds, plainByte b = true := fun b hb => isDec_plain (h b hb)

theorem exponent_plain {t : Bytes} {e : Int} (h : ExponentText t e) : ∀ b ∈ t, plainByte b = true := by
  cases h with
  | none => simp
  | exp hc hs hd _ =>
    intro b hb
    simp only [List.cons_append, List.mem_cons, List.mem_append] at hb
    rcases hb with rfl | hb | hb
    · rcases hc with rfl | rfl <;> rfl
    · exact signText_plain hs b hb
    · exact decimals_plain hd b hb

theorem readExp_text {t : Bytes} {e e' : Int} (h : ReadsExponent t e e') : readExp false t = some (e', false, []) := by
  cases h with
  | none => rfl
  | @exp c s ds neg hc hs hd hne =>
    have hl : lowerByte c = 0x65 := by rcases hc with rfl | rfl <;> rfl
    have hts : takeSign (s ++ ds) = (neg, ds) := takeSign_sign hs fun c cs he => by
      have := isDec_ne (hd c (by simp [he]))
      exact ⟨this.2.2.2.2.1, this.2.2.2.2.2⟩
    unfold readExp
    simp only [List.cons_append, hl, Bool.false_eq_true, if_false, if_true, hts]
    cases ds with
    | nil => exact absurd rfl hne
    | cons d ds =>
      simp only
      rw [if_pos ((isDec_range d).1 (hd d (by simp)))]
      have := expLoop_digits hd 0 false []
      rw [List.append_nil] at this
      rw [this]
      rfl

theorem stops_exponent {t : Bytes} {e : Int} (h : ExponentText t e) (b : Bool) : StopsMant b t := by
  intro c cs he
  cases h with
  | none => cases he
  | exp hc _ _ _ =>
    cases he
    rcases hc with rfl | rfl <;> exact ⟨by decide, by decide, fun h => absurd h (by decide)⟩

theorem mantissa_plain {m : Bytes} {n k : Nat} (h : MantissaText m n k) : ∀ b ∈ m, plainByte b = true := by
  cases h with
  | whole hd _ => exact decimals_plain hd
  | point hi hf _ =>
    intro b hb
    simp only [List.mem_append] at hb
    rcases hb with (hb | hb) | hb
    · exact decimals_plain hi b hb
    · simp at hb; subst hb; rfl
    · exact decimals_plain hf b hb

theorem mantissa_head {m : Bytes} {n k : Nat} (h : MantissaText m n k) : ∃ c cs, m = c :: cs ∧ c ≠ 0x2b ∧ c ≠ 0x2d := by
  cases h with
  | whole hd hne =>
    cases m with
    | nil => exact absurd rfl hne
    | cons c cs => have := isDec_ne (hd c (by simp)); exact ⟨c, cs, rfl, this.2.2.2.2⟩
  | @point ip fp hi hf hne =>
    cases ip with
    | nil => exact ⟨0x2e, fp, rfl, by decide, by decide⟩
    | cons c cs => have := isDec_ne (hi c (by simp)); exact ⟨c, _, rfl, this.2.2.2.2⟩

/-- The beginning of the digit loop. -/
def mantStart : FloatState := ⟨false, false, false, 0, 0, 0⟩

theorem mantLoop_text {m t : Bytes} {n k : Nat} {e : Int} (hm : MantissaText m n k) (ht : ExponentText t e) :
    ∃ st, mantLoop false mantStart (m ++ t) = (st, t) ∧ st.underscores = false ∧ st.sawDigits = true ∧ st.mant = n ∧
      (if st.sawDot then st.dp else st.nd) - (st.nd : Int) = -k := by
  cases hm with
  | whole hd hne =>
    obtain ⟨st, e1, e2, e3, e4, e5, e6, e7⟩ := mantLoop_digits hd mantStart t (fun _ => rfl)
    refine ⟨st, by rw [e1, mantLoop_stop (stops_exponent ht _)], e2, ?_, ?_, ?_⟩
    · rw [e4]; cases m with
      | nil => exact absurd rfl hne
      | cons _ _ => rfl
    · rw [e5]; simp [mantStart]
    · have : st.sawDot = false := e3
      rw [this]; simp
  | @point ip fp hi hf hne =>
    obtain ⟨s1, a1, a2, a3, a4, a5, a6, a7⟩ := mantLoop_digits hi mantStart (b! "." ++ (fp ++ t)) (fun _ => rfl)
    have hdot : mantLoop false s1 (b! "." ++ (fp ++ t)) = mantLoop false { s1 with sawDot := true, dp := s1.nd } (fp ++ t) := by
      show mantLoop false s1 (0x2e :: (fp ++ t)) = _
      conv => lhs; unfold mantLoop
      rw [if_neg (by decide), if_pos rfl, if_neg (by rw [a3]; simp [mantStart])]
    obtain ⟨s2, b1, b2, b3, b4, b5, b6, b7⟩ := mantLoop_digits hf { s1 with sawDot := true, dp := s1.nd } t a7
    refine ⟨s2, ?_, by rw [b2]; exact a2, ?_, ?_, ?_⟩
    · rw [List.append_assoc, List.append_assoc, a1, hdot, b1, mantLoop_stop (stops_exponent ht _)]
    · rw [b4, a4]
      cases ip with
      | nil => cases fp with
        | nil => exact absurd rfl hne
        | cons _ _ => simp
      | cons _ _ => simp
    · rw [b5, digitsValue_append]
      simp only [a5]
      simp [mantStart]
    · rw [b3]
      simp only [if_true]
      rw [b6]
      simp

theorem readFloat_text {s m t : Bytes} {neg : Bool} {n k : Nat} {e e' : Int} (hs : SignText s neg) (hm : MantissaText m n k)
    (ht : ReadsExponent t e e') : readFloat (s ++ m ++ t) = some ⟨neg, n, false, e' - k⟩ := by
  obtain ⟨c, cs, rfl, hc1, hc2⟩ := mantissa_head hm
  obtain ⟨st, e1, e2, e3, e4, e5⟩ := mantLoop_text hm ht.text
  have hsign : takeSign (s ++ (c :: cs) ++ t) = (neg, c :: cs ++ t) := by
    rw [List.append_assoc]
    exact takeSign_sign hs fun c' cs' he => by cases he; exact ⟨hc1, hc2⟩
  have hplain : ∀ b ∈ c :: cs ++ t, plainByte b = true := by
    intro b hb
    rcases List.mem_append.1 hb with hb | hb
    · exact mantissa_plain hm b hb
    · exact exponent_plain ht.text b hb
  have hhex := takeHex_plain hplain
  unfold readFloat
  simp only [hsign, hhex]
  have e1' : mantLoop false ⟨false, false, false, 0, 0, 0⟩ (c :: cs ++ t) = (st, t) := e1
  simp only [e1', e3, Bool.not_true, Bool.false_eq_true, if_false, readExp_text ht, e2]
  simp only [ne_eq, not_true_eq_false, false_or, false_and, if_false, e4, e5]
  simp
  omega

theorem parseFloat_text {s m t : Bytes} {neg : Bool} {n k : Nat} {e e' : Int} (hs : SignText s neg) (hm : MantissaText m n k)
    (ht : ReadsExponent t e e') : ∃ b, Closest ((n : ℚ) * 10 ^ (e' - k)) b ∧
      parseFloat (s ++ m ++ t) = if infinityBits ≤ b then .error .range else .ok (UInt64.ofNat (b + if neg then 2 ^ 63 else 0)) := by
  have hplain : ∀ b ∈ s ++ m ++ t, plainByte b = true := by
    intro b hb
    rcases List.mem_append.1 hb with hb | hb
    · rcases List.mem_append.1 hb with hb | hb
      · exact signText_plain hs b hb
      · exact mantissa_plain hm b hb
    · exact exponent_plain ht.text b hb
  refine ⟨if 0 ≤ e' - (k : Int) then roundFloat (n * 10 ^ (e' - (k : Int)).toNat) 1 else roundFloat n (10 ^ (-(e' - (k : Int))).toNat), ?_, ?_⟩
  · generalize e' - (k : Int) = x
    by_cases hx : 0 ≤ x
    · rw [if_pos hx]
      have := roundFloat_closest (n * 10 ^ x.toNat) 1 (by decide)
      obtain ⟨y, rfl⟩ := Int.eq_ofNat_of_zero_le hx
      simpa [zpow_natCast] using this
    · rw [if_neg hx]
      have := roundFloat_closest n (10 ^ (-x).toNat) (Nat.pos_of_ne_zero (by positivity))
      obtain ⟨y, hy⟩ : ∃ y : Nat, x = -(y : Int) := ⟨(-x).toNat, by omega⟩
      subst hy
      rw [zpow_neg, zpow_natCast]
      simpa [div_eq_mul_inv] using this
  · unfold parseFloat
    rw [special_plain hplain]
    simp only [readFloat_text hs hm ht]
    have : infinityBits = 2047 * 2 ^ 52 := by decide
    rw [this]
    rfl

/-! ### Nothing else is read -/

theorem takeSign_split (w : Bytes) : ∃ s, SignText s (takeSign w).1 ∧ w = s ++ (takeSign w).2 := by
  cases w with
  | nil => exact ⟨[], .none, rfl⟩
  | cons c cs =>
    simp only [takeSign]
    by_cases h1 : c = 0x2b
    · rw [if_pos h1]; exact ⟨_, .plus, by rw [h1]; rfl⟩
    · rw [if_neg h1]
      by_cases h2 : c = 0x2d
      · rw [if_pos h2]; exact ⟨_, .minus, by rw [h2]; rfl⟩
      · rw [if_neg h2]; exact ⟨_, .none, rfl⟩

theorem takeWhile_decimals (t : Bytes) : Decimals (t.takeWhile isDec) := fun b hb => by
  have := List.all_takeWhile (p := isDec) (l := t)
  rw [List.all_eq_true] at this
  exact this b hb

theorem dropWhile_head (t : Bytes) : ∀ c cs, t.dropWhile isDec = c :: cs → isDec c = false := by
  intro c cs h
  have := List.head_dropWhile_not (p := isDec) (l := t) (by rw [h]; simp)
  simpa [h] using this

theorem expLoop_end {t : Bytes} : (∀ b ∈ t, plainByte b = true) → ∀ e u, (expLoop e u t).2.2 = [] → Decimals t := by
  induction t with
  | nil => intro _ _ _ _ b hb; cases hb
  | cons c cs ih =>
    intro hp e u h
    have hc := (plainByte_facts c (hp c (by simp))).1
    unfold expLoop at h
    rw [if_neg hc] at h
    by_cases hd : 0x30 ≤ c ∧ c ≤ 0x39
    · rw [if_pos hd] at h
      have := ih (fun b hb => hp b (by simp [hb])) _ _ h
      intro b hb
      rcases List.mem_cons.1 hb with rfl | hb
      · exact (isDec_range _).2 hd
      · exact this b hb
    · rw [if_neg hd] at h; cases h

theorem readExp_inv {t : Bytes} (hp : ∀ b ∈ t, plainByte b = true) {e : Int} {u : Bool} (h : readExp false t = some (e, u, [])) :
    ∃ e, ExponentText t e := by
  cases t with
  | nil => exact ⟨_, .none⟩
  | cons c cs =>
    unfold readExp at h
    simp only [Bool.false_eq_true, if_false] at h
    by_cases hc : lowerByte c = 0x65
    · rw [if_pos hc] at h
      obtain ⟨s, hs, he⟩ := takeSign_split cs
      generalize hts : takeSign cs = q at *
      obtain ⟨neg, t⟩ := q
      simp only at h hs he
      cases t with
      | nil => cases h
      | cons d ds =>
        simp only at h
        by_cases hd : 0x30 ≤ d ∧ d ≤ 0x39
        · rw [if_pos hd] at h
          simp only [Option.some.injEq, Prod.mk.injEq] at h
          have := expLoop_end (fun b hb => hp b (by rw [he]; simp at hb ⊢; tauto)) 0 false h.2.2
          subst he
          exact ⟨_, ExponentText.exp ((exp_letter c (hp c (by simp))).1 hc) hs this (by simp)⟩
        · rw [if_neg hd] at h; cases h
    · rw [if_neg hc] at h
      simp at h

theorem mantLoop_inv {t : Bytes} (hp : ∀ b ∈ t, plainByte b = true) (hs : (mantLoop false mantStart t).1.sawDigits = true) :
    ∃ m n k, MantissaText m n k ∧ t = m ++ (mantLoop false mantStart t).2 := by
  have hsplit : t.takeWhile isDec ++ t.dropWhile isDec = t := List.takeWhile_append_dropWhile
  obtain ⟨s1, a1, a2, a3, a4, a5, a6, a7⟩ := mantLoop_digits (takeWhile_decimals t) mantStart (t.dropWhile isDec) (fun _ => rfl)
  rw [hsplit] at a1
  have hdrop := dropWhile_head t
  have hip := takeWhile_decimals t
  generalize t.takeWhile isDec = ip at *
  generalize t.dropWhile isDec = r at *
  subst hsplit
  by_cases hr : ∃ r', r = 0x2e :: r'
  · obtain ⟨r', rfl⟩ := hr
    have hdot : mantLoop false s1 (0x2e :: r') = mantLoop false { s1 with sawDot := true, dp := s1.nd } r' := by
      conv => lhs; unfold mantLoop
      rw [if_neg (by decide), if_pos rfl, if_neg (by rw [a3]; simp [mantStart])]
    have hsplit : r'.takeWhile isDec ++ r'.dropWhile isDec = r' := List.takeWhile_append_dropWhile
    obtain ⟨s2, b1, b2, b3, b4, b5, b6, b7⟩ := mantLoop_digits (takeWhile_decimals r') { s1 with sawDot := true, dp := s1.nd } (r'.dropWhile isDec) a7
    rw [hsplit] at b1
    have hdrop' := dropWhile_head r'
    have hfp := takeWhile_decimals r'
    generalize r'.takeWhile isDec = fp at *
    generalize r'.dropWhile isDec = r2 at *
    subst hsplit
    have hstop : mantLoop false s2 r2 = (s2, r2) := mantLoop_stop fun c cs he =>
      ⟨(plainByte_facts c (hp c (by simp [he]))).1, hdrop' c cs he, fun _ => b3⟩
    rw [a1, hdot, b1, hstop] at hs ⊢
    refine ⟨_, _, _, .point hip hfp ?_, by simp⟩
    intro hnil
    obtain ⟨rfl, rfl⟩ := List.append_eq_nil_iff.1 hnil
    simp only at hs
    rw [b4] at hs
    simp only [a4] at hs
    cases hs
  · have hstop : mantLoop false s1 r = (s1, r) := mantLoop_stop fun c cs he =>
      ⟨(plainByte_facts c (hp c (by simp [he]))).1, hdrop c cs he, fun hc => absurd ⟨cs, by rw [he, hc]⟩ hr⟩
    rw [a1, hstop] at hs ⊢
    refine ⟨_, _, _, .whole hip ?_, rfl⟩
    rintro rfl
    simp only at hs
    rw [a4] at hs
    cases hs

theorem readFloat_inv {w : Bytes} (hp : ∀ b ∈ w, plainByte b = true) {f : FloatText} (h : readFloat w = some f) :
    ∃ s neg m n k t e, SignText s neg ∧ MantissaText m n k ∧ ExponentText t e ∧ w = s ++ m ++ t := by
  obtain ⟨s, hs, he⟩ := takeSign_split w
  generalize hts : takeSign w = q at *
  obtain ⟨neg, t⟩ := q
  simp only at hs he
  subst he
  have hpt : ∀ b ∈ t, plainByte b = true := fun b hb => hp b (by simp [hb])
  unfold readFloat at h
  have hms : (⟨false, false, false, 0, 0, 0⟩ : FloatState) = mantStart := rfl
  simp only [hts, takeHex_plain hpt, hms] at h
  have hm := mantLoop_inv hpt
  generalize mantLoop false mantStart t = q at *
  obtain ⟨st, r⟩ := q
  simp only at h hm
  by_cases hsd : st.sawDigits = true
  · obtain ⟨m, n, k, h1, h2⟩ := hm hsd
    rw [if_neg (by simp [hsd])] at h
    subst h2
    cases hre : readExp false r with
    | none => rw [hre] at h; cases h
    | some x =>
      obtain ⟨e, u, r'⟩ := x
      rw [hre] at h
      simp only at h
      by_cases hr' : r' = []
      · subst hr'
        obtain ⟨e, he⟩ := readExp_inv (fun b hb => hpt b (by simp [hb])) hre
        exact ⟨s, neg, m, n, k, r, e, hs, h1, he, by simp⟩
      · rw [if_pos hr'] at h; cases h
  · rw [if_pos (by simp [hsd])] at h; cases h

theorem parseFloat_bare {s t : Bytes} {neg : Bool} {e : Int} (hs : SignText s neg) (ht : ExponentText t e) :
    parseFloat (s ++ b! "." ++ t) = .error .syntax := by
  have hp : ∀ b ∈ b! "." ++ t, plainByte b = true := by
    intro b hb
    rcases List.mem_append.1 hb with hb | hb
    · simp at hb; subst hb; rfl
    · exact exponent_plain ht b hb
  have hp' : ∀ b ∈ s ++ b! "." ++ t, plainByte b = true := by
    intro b hb
    rw [List.append_assoc] at hb
    rcases List.mem_append.1 hb with hb | hb
    · exact signText_plain hs b hb
    · exact hp b hb
  have hsign : takeSign (s ++ b! "." ++ t) = (neg, b! "." ++ t) := by
    rw [List.append_assoc]
    exact takeSign_sign hs fun c cs he => by cases he; exact ⟨by decide, by decide⟩
  have hm : mantLoop false mantStart (b! "." ++ t) = ({ mantStart with sawDot := true, dp := 0 }, t) := by
    show mantLoop false mantStart (0x2e :: t) = _
    conv => lhs; unfold mantLoop
    rw [if_neg (by decide), if_pos rfl, if_neg (by decide)]
    exact mantLoop_stop (stops_exponent ht _)
  have hms : (⟨false, false, false, 0, 0, 0⟩ : FloatState) = mantStart := rfl
  unfold parseFloat
  rw [special_plain hp']
  have : readFloat (s ++ b! "." ++ t) = none := by
    unfold readFloat
    simp only [hsign, takeHex_plain hp, hms, hm]
    rfl
  rw [this]

/-! ### Very large and very small numbers -/

theorem value_one : floatValue 1 = 2 ^ (-1074 : ℤ) := by
  unfold floatValue
  rw [if_pos (by decide)]
  simp

theorem value_zero : floatValue 0 = 0 := by
  unfold floatValue
  rw [if_pos (by decide)]
  simp

theorem closest_zero {x : ℚ} (h0 : 0 ≤ x) (h : x < 2 ^ (-1075 : ℤ)) : Closest x 0 := by
  have e : (2 : ℚ) ^ (-1074 : ℤ) = 2 * 2 ^ (-1075 : ℤ) := by
    rw [show (-1074 : ℤ) = 1 + -1075 by norm_num, zpow_add₀ (by norm_num)]; norm_num
  have := value_one
  rw [e] at this
  generalize (2 : ℚ) ^ (-1075 : ℤ) = u at *
  clear e
  exact closest_of (B := 0) (by rw [value_zero]; exact h0) (by rw [this]; linarith) (.inl ⟨rfl, by rw [value_zero, this]; linarith⟩)

theorem Closest.unique {x : ℚ} {b b' : Nat} (h : Closest x b) (h' : Closest x b') : b = b' := by
  by_contra hne
  wlog hlt : b < b' generalizing b b' with H
  · exact H h' h (Ne.symm hne) (by omega)
  have e : |x - floatValue b'| = |x - floatValue b| := le_antisymm (h'.nearest _) (h.nearest _)
  have p1 := h.even b' (Ne.symm hne) e
  have p2 := h'.even b hne e.symm
  have m1 := floatValue_strictMono (show b < b + 1 by omega)
  have m2 := floatValue_strictMono (show b + 1 < b' by omega)
  have hb := h.nearest (b + 1)
  rcases abs_cases (x - floatValue b) with ⟨a1, a2⟩ | ⟨a1, a2⟩ <;> rcases abs_cases (x - floatValue b') with ⟨c1, c2⟩ | ⟨c1, c2⟩ <;>
    rcases abs_cases (x - floatValue (b + 1)) with ⟨d1, d2⟩ | ⟨d1, d2⟩ <;> linarith

theorem ten_pow_large : tooLarge ≤ (10 : ℚ) ^ (1000 : ℤ) := by
  unfold tooLarge
  have h1 : (2 : ℚ) ^ 1024 ≤ 2 ^ 3000 := pow_le_pow_right₀ (by norm_num) (by norm_num)
  have h2 : (2 : ℚ) ^ 3000 = 8 ^ 1000 := by rw [show (8 : ℚ) = 2 ^ 3 by norm_num, ← pow_mul]
  have h3 : (8 : ℚ) ^ 1000 ≤ 10 ^ 1000 := pow_le_pow_left₀ (by norm_num) (by norm_num) _
  have h4 : (0 : ℚ) < 2 ^ 970 := by positivity
  have h5 : (10 : ℚ) ^ (1000 : ℤ) = 10 ^ 1000 := by rw [show (1000 : ℤ) = (1000 : ℕ) by norm_num, zpow_natCast]
  rw [h5]
  generalize (10 : ℚ) ^ 1000 = a at *
  generalize (8 : ℚ) ^ 1000 = b at *
  generalize (2 : ℚ) ^ 3000 = c at *
  generalize (2 : ℚ) ^ 970 = d at *
  generalize (2 : ℚ) ^ 1024 = f at *
  linarith

theorem ten_pow_small : (10 : ℚ) ^ (-1000 : ℤ) < 2 ^ (-1075 : ℤ) := by
  have h1 : (2 : ℚ) ^ 1075 < 2 ^ 3000 := pow_lt_pow_right₀ (by norm_num) (by norm_num)
  have h2 : (2 : ℚ) ^ 3000 = 8 ^ 1000 := by rw [show (8 : ℚ) = 2 ^ 3 by norm_num, ← pow_mul]
  have h3 : (8 : ℚ) ^ 1000 ≤ 10 ^ 1000 := pow_le_pow_left₀ (by norm_num) (by norm_num) _
  rw [show (-1000 : ℤ) = -((1000 : ℕ) : ℤ) by norm_num, show (-1075 : ℤ) = -((1075 : ℕ) : ℤ) by norm_num, zpow_neg, zpow_neg, zpow_natCast, zpow_natCast]
  have h4 : (0 : ℚ) < 2 ^ 1075 := by positivity
  rw [inv_lt_inv₀ (by positivity) h4]
  generalize (10 : ℚ) ^ 1000 = a at *
  generalize (8 : ℚ) ^ 1000 = b at *
  generalize (2 : ℚ) ^ 3000 = c at *
  generalize (2 : ℚ) ^ 1075 = d at *
  linarith

theorem mantissa_bounds {m : Bytes} {n k : Nat} (h : MantissaText m n k) : k ≤ m.length ∧ n < 10 ^ m.length := by
  cases h with
  | whole hd _ => exact ⟨by omega, digitsValue_lt hd⟩
  | @point ip fp hi hf _ =>
    have h1 : digitsValue (ip ++ fp) < 10 ^ (ip ++ fp).length := digitsValue_lt fun b hb => by
      rcases List.mem_append.1 hb with hb | hb
      · exact hi b hb
      · exact hf b hb
    rw [List.length_append] at h1
    exact ⟨by simp; omega, lt_of_lt_of_le h1 (Nat.pow_le_pow_right (by omega) (by simp))⟩

/-- The number that is rounded may be another one than the number that is written, if the exponent is beyond 100000; the result is the
same if the digits are not too many. -/
theorem closest_same {m t : Bytes} {n k b : Nat} {e e' : Int} (hm : MantissaText m n k) (ht : ReadsExponent t e e')
    (hshort : e.natAbs < 100000 ∨ m.length ≤ 9000) (h : Closest ((n : ℚ) * 10 ^ (e' - k)) b) :
    (((n : ℚ) * 10 ^ (e - k) < tooLarge) ∧ b < infinityBits ∧ NearestFloat ((n : ℚ) * 10 ^ (e - k)) b) ∨
    (tooLarge ≤ (n : ℚ) * 10 ^ (e - k) ∧ infinityBits ≤ b) := by
  have base : ∀ {x : ℚ}, Closest x b → (x < tooLarge ∧ b < infinityBits ∧ NearestFloat x b) ∨ (tooLarge ≤ x ∧ infinityBits ≤ b) := by
    intro x h
    by_cases hx : x < tooLarge
    · exact .inl ⟨hx, (closest_finite h).2 hx, h.nearestFloat hx⟩
    · exact .inr ⟨by linarith, by have := (closest_finite h).1; by_contra hb; exact hx (this (by omega))⟩
  obtain ⟨hk, hn⟩ := mantissa_bounds hm
  by_cases hn0 : n = 0
  · subst hn0
    simp only [Nat.cast_zero, zero_mul] at h ⊢
    exact base h
  · have hn1 : (1 : ℚ) ≤ n := by exact_mod_cast Nat.one_le_iff_ne_zero.2 hn0
    rcases ht.same with rfl | ⟨h1, h2, h3⟩ | ⟨h1, h2, h3⟩
    · exact base h
    · have hl : m.length ≤ 9000 := by omega
      have big : ∀ y : Int, e' ≤ y → tooLarge ≤ (n : ℚ) * 10 ^ (y - k) := fun y hy => by
        have p1 : (10 : ℚ) ^ (1000 : ℤ) ≤ 10 ^ (y - k) := zpow_le_zpow_right₀ (by norm_num) (by omega)
        have p2 : (0 : ℚ) ≤ 10 ^ (y - k) := zpow_nonneg (by norm_num) _
        have := ten_pow_large
        have := mul_le_mul_of_nonneg_right hn1 p2
        linarith
      refine .inr ⟨big e h2, ?_⟩
      by_contra hb
      have := (closest_finite h).1 (by omega)
      have := big e' (le_refl _)
      linarith
    · have hl : m.length ≤ 9000 := by omega
      have small : ∀ y : Int, y ≤ e' → (n : ℚ) * 10 ^ (y - k) < 2 ^ (-1075 : ℤ) := fun y hy => by
        have p0 : (n : ℚ) ≤ 10 ^ (m.length : ℤ) := by rw [zpow_natCast]; exact_mod_cast le_of_lt hn
        have p2 : (0 : ℚ) ≤ 10 ^ (y - k) := zpow_nonneg (by norm_num) _
        have p3 := mul_le_mul_of_nonneg_right p0 p2
        rw [← zpow_add₀ (by norm_num)] at p3
        have p1 : (10 : ℚ) ^ ((m.length : ℤ) + (y - k)) ≤ 10 ^ (-1000 : ℤ) := zpow_le_zpow_right₀ (by norm_num) (by omega)
        have := ten_pow_small
        exact lt_of_le_of_lt p3 (lt_of_le_of_lt p1 this)
      have pos : ∀ y : Int, (0 : ℚ) ≤ n * 10 ^ (y - k) := fun y => mul_nonneg (by linarith) (zpow_nonneg (by norm_num) _)
      have hb : b = 0 := h.unique (closest_zero (pos _) (small e' (le_refl _)))
      subst hb
      exact base (closest_zero (pos _) (small e h2))

theorem Spec.InLetters.lower {word w : Bytes} (h : InLetters word w) (hw : ∀ l ∈ word, 0x61 ≤ l ∧ l ≤ 0x7a) :
    w.map (fun c : UInt8 => if 0x41 ≤ c ∧ c ≤ 0x5a then c + 0x20 else c) = word := by
  induction h with
  | nil => rfl
  | @cons l b _ _ h _ ih =>
    rw [List.map_cons, ih fun l hl => hw l (by simp [hl])]
    congr 1
    have hl := hw l (by simp)
    simp only [UInt8.le_iff_toNat_le] at hl ⊢
    have h1 : (0x61 : UInt8).toNat = 0x61 := rfl
    have h2 : (0x7a : UInt8).toNat = 0x7a := rfl
    have h3 : (0x41 : UInt8).toNat = 0x41 := rfl
    have h4 : (0x5a : UInt8).toNat = 0x5a := rfl
    rw [h1, h2] at hl
    rw [h3, h4]
    rcases h with rfl | h
    · rw [if_neg (by omega)]
    · rw [if_pos (by omega)]
      apply UInt8.toNat_inj.1
      rw [UInt8.toNat_add, show (0x20 : UInt8).toNat = 0x20 from rfl]
      omega

theorem Spec.InLetters.head {word w : Bytes} (h : InLetters word w) (hne : word ≠ []) (hw : ∀ l ∈ word, 0x61 ≤ l ∧ l ≤ 0x7a) :
    takeSign w = (false, w) := by
  cases h with
  | nil => exact absurd rfl hne
  | @cons l b _ _ h _ =>
    have hl := hw l (by simp)
    simp only [UInt8.le_iff_toNat_le] at hl
    have h1 : (0x61 : UInt8).toNat = 0x61 := rfl
    rw [h1] at hl
    unfold takeSign
    simp only
    rw [if_neg, if_neg]
    · rintro rfl
      have : (0x2d : UInt8).toNat = 0x2d := rfl
      rcases h with rfl | h <;> omega
    · rintro rfl
      have : (0x2b : UInt8).toNat = 0x2b := rfl
      rcases h with rfl | h <;> omega

end Takenoco
