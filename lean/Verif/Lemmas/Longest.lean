import Verif.Lemmas.FloatLit
import Verif.Spec.NumberText
/-
The lexers of package extra take the longest beginning that is in their language.
-/
namespace Takenoco
open Spec

/-- Whatever the lexer takes is in the language, and it takes at least every beginning in the language. -/
structure LexLong (L : Lex) (P : Bytes → Prop) : Prop where
  sound : ∀ {s n}, L s = some n → P (s.take n)
  long : ∀ {w} (r), P w → ∃ n, L (w ++ r) = some n ∧ w.length ≤ n

/-- In front of such a rest the lexer takes exactly the word. -/
def LexStops (L : Lex) (P : Bytes → Prop) (Stop : Bytes → Prop) : Prop := ∀ {w r}, P w → Stop r → L (w ++ r) = some w.length

theorem lexLong_longest {L : Lex} {P : Bytes → Prop} (h : LexLong L P) {s w : Bytes} (hw : Longest P s w) : ∃ n, L s = some n ∧ s.take n = w := by
  obtain ⟨h1, ⟨r, rfl⟩, h3⟩ := hw
  obtain ⟨n, h4, h5⟩ := h.long r h1
  refine ⟨n, h4, ?_⟩
  have h6 := h3 _ (h.sound h4) (List.take_prefix _ _)
  rw [List.length_take] at h6
  rcases Nat.lt_or_ge (w ++ r).length n with h7 | h7
  · rw [Nat.min_eq_right (by omega)] at h6
    rw [List.length_append] at h6
    have : r = [] := List.eq_nil_of_length_eq_zero (by omega)
    subst this
    rw [List.append_nil]
    exact List.take_of_length_le (by simp at h7; omega)
  · rw [Nat.min_eq_left h7] at h6
    rw [show n = w.length by omega, List.take_left]

theorem lexLong_none {L : Lex} {P : Bytes → Prop} (h : LexLong L P) {s : Bytes} (hw : ∀ w, P w → ¬ w <+: s) : L s = none := by
  cases hL : L s with
  | none => rfl
  | some n => exact absurd (List.take_prefix _ _) (hw _ (h.sound hL))

section
variable {env : Env}

theorem takesLongest {g : Gram} {L : Lex} {P : Bytes → Prop} {name : String} (h : Lexes (den env g) L) (hl : LexLong L P) :
    TakesLongest (den env (.trans g [.fn concat, .fn (changeClassName name)])) P name := by
  intro c hs hc
  constructor
  · intro w hw
    obtain ⟨n, h1, h2⟩ := lexLong_longest hl hw
    have h3 := ((lexes_consumes (name := name) h c hs hc).1 n h1).2
    rwa [h2] at h3
  · intro hn
    exact (lexes_consumes (name := name) h c hs hc).2 (lexLong_none hl hn)

end

/-! ### Runs -/

theorem run_long {B : UInt8 → Bool} {u : Bytes} (r : Bytes) (hu : ∀ b ∈ u, B b = true) : ∃ n, Lex.run B (u ++ r) = some n ∧ u.length ≤ n := by
  refine ⟨_, rfl, ?_⟩
  rw [List.takeWhile_append_of_pos hu, List.length_append]
  omega

theorem run_stops {B : UInt8 → Bool} {u r : Bytes} (hu : ∀ b ∈ u, B b = true) (hr : ¬ StartsWith B r) : Lex.run B (u ++ r) = some u.length := by
  unfold Lex.run
  rw [List.takeWhile_append_of_pos hu, List.length_append]
  cases r with
  | nil => rfl
  | cons b r =>
    have : B b = false := by
      cases hb : B b with
      | false => rfl
      | true => exact absurd ⟨b, r, rfl, hb⟩ hr
    simp [this]

theorem run_sound {B : UInt8 → Bool} {s : Bytes} {n : Nat} (h : Lex.run B s = some n) : ∀ b ∈ s.take n, B b = true := by
  cases h
  rw [take_takeWhile]
  exact fun b hb => List.all_eq_true.1 (List.all_takeWhile (p := B) (l := s)) b hb

theorem mixed_iff {D : UInt8 → Bool} {u : Bytes} : Mixed D u ↔ ∀ b ∈ u, or_ D b = true := by
  simp only [Mixed, or_, Bool.or_eq_true, beq_iff_eq]

theorem seq_cons {B : UInt8 → Bool} {M : Lex} {b : UInt8} {s : Bytes} {n : Nat} (hb : B b = true) (h : M s = some n) :
    Lex.seq (Lex.byte B) M (b :: s) = some (1 + n) :=
  lex_seq_some.2 ⟨1, n, lex_byte_some.2 ⟨rfl, b, s, rfl, hb⟩, h, rfl⟩

/-- One byte, then a run. -/
theorem headRun_sound {B C : UInt8 → Bool} {s : Bytes} {n : Nat} (h : Lex.seq (Lex.byte B) (Lex.run C) s = some n) :
    ∃ b u, s.take n = b :: u ∧ B b = true ∧ ∀ x ∈ u, C x = true := by
  obtain ⟨a, k, h1, h2, rfl⟩ := lex_seq_some.1 h
  obtain ⟨rfl, b, s', rfl, hb⟩ := lex_byte_some.1 h1
  refine ⟨b, s'.take k, by rw [take_add_drop]; rfl, hb, run_sound h2⟩

theorem headRun_long {B C : UInt8 → Bool} {b : UInt8} {u : Bytes} (r : Bytes) (hb : B b = true) (hu : ∀ x ∈ u, C x = true) :
    ∃ n, Lex.seq (Lex.byte B) (Lex.run C) (b :: u ++ r) = some n ∧ (b :: u).length ≤ n := by
  obtain ⟨n, h1, h2⟩ := run_long r hu
  exact ⟨_, seq_cons hb h1, by simp only [List.length_cons]; omega⟩

theorem headRun_stops {B C : UInt8 → Bool} {b : UInt8} {u r : Bytes} (hb : B b = true) (hu : ∀ x ∈ u, C x = true) (hr : ¬ StartsWith C r) :
    Lex.seq (Lex.byte B) (Lex.run C) (b :: u ++ r) = some (b :: u).length := by
  rw [List.cons_append, seq_cons hb (run_stops hu hr), List.length_cons, Nat.add_comm]

theorem digits_lexLong (D : UInt8 → Bool) : LexLong (Lex.seq (Lex.byte D) (Lex.run (or_ D))) (DigitText D) where
  sound h := by
    obtain ⟨b, u, h1, h2, h3⟩ := headRun_sound h
    rw [h1]
    exact .mk h2 (mixed_iff.2 h3)
  long r h := by
    cases h with
    | mk h1 h2 => exact headRun_long r h1 (mixed_iff.1 h2)

/-! ### Whole numbers -/

theorem underscores_iff {u : Bytes} : Underscores u ↔ ∀ b ∈ u, (b == 0x5f) = true := by
  simp only [Underscores, beq_iff_eq]

theorem lex_zero_none {d : UInt8} {s : Bytes} (hd : d ≠ 0x30) : Lex.zero (d :: s) = none := by
  have : (d == 0x30) = false := beq_false_of_ne hd
  simp [Lex.zero, Lex.seq, Lex.byte, this]

theorem nat_lexLong : LexLong Lex.nat WholeText where
  sound {s n} h := by
    rcases lex_alt_some.1 h with h | ⟨h0, h⟩
    · obtain ⟨b, u, h1, h2, h3⟩ := headRun_sound h
      rw [h1, eq_of_beq h2]
      exact .zero (underscores_iff.2 h3)
    · obtain ⟨b, u, h1, h2, h3⟩ := headRun_sound h
      rw [h1]
      refine .digits h2 ?_ (mixed_iff.2 h3)
      rintro rfl
      cases s with
      | nil => simp at h1
      | cons d s =>
        have hd : d = 0x30 := by
          cases n with
          | zero => simp at h1
          | succ n => simp at h1; exact h1.1
        subst hd
        simp [Lex.zero, Lex.seq, Lex.byte, Lex.run] at h0
  long r h := by
    cases h with
    | zero hu =>
      obtain ⟨n, h1, h2⟩ := headRun_long (B := (· == 0x30)) (b := 0x30) r rfl (underscores_iff.1 hu)
      exact ⟨n, lex_alt_some.2 (.inl h1), h2⟩
    | digits hd h0 hu =>
      obtain ⟨n, h1, h2⟩ := headRun_long r hd (mixed_iff.1 hu)
      exact ⟨n, lex_alt_some.2 (.inr ⟨lex_zero_none h0, h1⟩), h2⟩

theorem nat_stops : LexStops Lex.nat WholeText (fun r => ¬ StartsWith (or_ isDec) r) := by
  intro w r h hr
  cases h with
  | zero hu =>
    refine lex_alt_some.2 (.inl (headRun_stops (B := (· == 0x30)) rfl (underscores_iff.1 hu) fun ⟨b, s, h1, h2⟩ => hr ⟨b, s, h1, ?_⟩))
    rw [eq_of_beq h2]; rfl
  | digits hd h0 hu => exact lex_alt_some.2 (.inr ⟨lex_zero_none h0, headRun_stops hd (mixed_iff.1 hu) hr⟩)

/-! ### Signs -/

theorem sign_sound {s : Bytes} {n : Nat} (h : (Lex.byte isSign).opt s = some n) : OptSign (s.take n) := by
  unfold Lex.opt Lex.byte at h
  cases s with
  | nil => cases h; exact .none
  | cons b s =>
    simp only at h
    by_cases hb : isSign b = true
    · rw [if_pos hb] at h
      cases h
      exact .sign hb
    · rw [if_neg hb] at h
      cases h
      exact .none

theorem sign_exact {s r : Bytes} (h : OptSign s) (hr : ¬ StartsWith isSign r) : (Lex.byte isSign).opt (s ++ r) = some s.length := by
  cases h with
  | none =>
    cases r with
    | nil => rfl
    | cons b r =>
      have : ¬ isSign b = true := fun hb => hr ⟨b, r, rfl, hb⟩
      simp [Lex.opt, Lex.byte, this]
  | sign hb => simp [Lex.opt, Lex.byte, hb]

theorem dec_no_sign {b : UInt8} (h : isDec b = true) : isSign b = false := by
  cases hs : isSign b with
  | false => rfl
  | true =>
    simp only [isSign, Bool.or_eq_true, beq_iff_eq] at hs
    rcases hs with rfl | rfl <;> cases h

theorem whole_head {w : Bytes} (h : WholeText w) : ∃ d u, w = d :: u ∧ isDec d = true := by
  cases h with
  | zero => exact ⟨_, _, rfl, rfl⟩
  | digits hd => exact ⟨_, _, rfl, hd⟩

theorem whole_no_sign {w : Bytes} (h : WholeText w) (r : Bytes) : ¬ StartsWith isSign (w ++ r) := by
  obtain ⟨d, u, rfl, hd⟩ := whole_head h
  rintro ⟨b, s, h1, h2⟩
  cases h1
  rw [dec_no_sign hd] at h2
  cases h2

theorem integer_lexLong : LexLong Lex.integer IntegerText where
  sound h := by
    obtain ⟨a, b, h1, h2, rfl⟩ := lex_seq_some.1 h
    rw [take_add_drop]
    exact .mk (sign_sound h1) (nat_lexLong.sound h2)
  long r h := by
    cases h with
    | mk hs hw =>
      rename_i s w
      obtain ⟨n, h1, h2⟩ := nat_lexLong.long r hw
      refine ⟨s.length + n, lex_seq_some.2 ⟨_, n, ?_, ?_, rfl⟩, by rw [List.length_append]; omega⟩
      · rw [List.append_assoc]; exact sign_exact hs (whole_no_sign hw r)
      · rw [List.append_assoc, List.drop_left]; exact h1

/-! ### Exponents -/

theorem expo_lexLong : LexLong Lex.expo PowerText where
  sound h := by
    obtain ⟨a, b, h1, h2, rfl⟩ := lex_seq_some.1 h
    obtain ⟨a', b', h3, h4, rfl⟩ := lex_seq_some.1 h2
    obtain ⟨rfl, x, s', rfl, hx⟩ := lex_byte_some.1 h1
    rw [take_add_drop, take_add_drop]
    simp only [Bool.or_eq_true, beq_iff_eq] at hx
    have h5 := PowerText.mk hx (sign_sound h3) ((digits_lexLong isDec).sound h4)
    rw [List.cons_append] at h5
    exact h5
  long r h := by
    cases h with
    | mk he hs hw =>
      rename_i e s w
      obtain ⟨n, h1, h2⟩ := (digits_lexLong isDec).long r hw
      have hns : ¬ StartsWith isSign (w ++ r) := by
        cases hw with
        | mk hd =>
          rintro ⟨b, s, h1, h2⟩
          cases h1
          rw [dec_no_sign hd] at h2
          cases h2
      have h3 : Lex.seq (Lex.byte isSign).opt (Lex.seq (Lex.byte isDec) (Lex.run (or_ isDec))) (s ++ (w ++ r)) = some (s.length + n) :=
        lex_seq_some.2 ⟨_, n, sign_exact hs hns, by rw [List.drop_left]; exact h1, rfl⟩
      refine ⟨1 + (s.length + n), ?_, by simp only [List.length_cons, List.length_append]; omega⟩
      rw [List.cons_append, List.cons_append, List.append_assoc]
      exact seq_cons (by rcases he with rfl | rfl <;> rfl) h3

theorem opt_expo_sound {s : Bytes} {n : Nat} (h : Lex.expo.opt s = some n) : OptPower (s.take n) := by
  unfold Lex.opt at h
  cases hx : Lex.expo s with
  | none => rw [hx] at h; cases h; exact .none
  | some k => rw [hx] at h; cases h; exact .power (expo_lexLong.sound hx)

theorem opt_expo_long {e : Bytes} (r : Bytes) (h : OptPower e) : ∃ n, Lex.expo.opt (e ++ r) = some n ∧ e.length ≤ n := by
  cases h with
  | none =>
    obtain ⟨n, hn⟩ := lex_opt_total Lex.expo ([] ++ r)
    exact ⟨n, hn, Nat.zero_le _⟩
  | power h =>
    obtain ⟨n, h1, h2⟩ := expo_lexLong.long r h
    exact ⟨n, by unfold Lex.opt; rw [h1], h2⟩

theorem power_head {e : Bytes} (h : PowerText e) (r : Bytes) : ¬ StartsWith (or_ isDec) (e ++ r) := by
  cases h with
  | mk he =>
    rintro ⟨b, s, h1, h2⟩
    cases h1
    rcases he with rfl | rfl <;> cases h2

/-- Digits behind a point, then an optional exponent: at least as much is taken as there is. -/
theorem fraction_long {f e : Bytes} (r : Bytes) (hf : Mixed isDec f) (he : OptPower e) :
    ∃ a b, Lex.run (or_ isDec) (f ++ (e ++ r)) = some a ∧ Lex.expo.opt ((f ++ (e ++ r)).drop a) = some b ∧ f.length ≤ a ∧ f.length + e.length ≤ a + b := by
  cases he with
  | none =>
    obtain ⟨a, h1, h2⟩ := run_long ([] ++ r) (mixed_iff.1 hf)
    obtain ⟨b, hb⟩ := lex_opt_total Lex.expo ((f ++ ([] ++ r)).drop a)
    exact ⟨a, b, h1, hb, h2, by simp; omega⟩
  | power he =>
    obtain ⟨b, h1, h2⟩ := opt_expo_long r (.power he)
    refine ⟨f.length, b, run_stops (mixed_iff.1 hf) (power_head he r), ?_, Nat.le_refl _, by omega⟩
    rw [List.drop_left]; exact h1

theorem run1_of_run {B : UInt8 → Bool} {s : Bytes} {n : Nat} (h : Lex.run B s = some n) (hn : 0 < n) : Lex.run1 B s = some n := by
  unfold Lex.run at h
  cases s with
  | nil => cases h; simp at hn
  | cons b s =>
    unfold Lex.run1
    cases h
    by_cases hb : B b = true
    · simp [hb]
    · simp [hb] at hn

theorem point_not_dec {r : Bytes} : ¬ StartsWith (or_ isDec) (0x2e :: r) := by
  rintro ⟨b, s, h1, h2⟩
  cases h1
  cases h2

theorem point_no_sign {r : Bytes} : ¬ StartsWith isSign (0x2e :: r) := by
  rintro ⟨b, s, h1, h2⟩
  cases h1
  cases h2

theorem nat_point (r : Bytes) : Lex.nat (0x2e :: r) = none := lexNat_none fun ⟨b, s, h1, h2⟩ => by cases h1; cases h2

/-- The three forms behind the sign. -/
theorem signed_long {L : Lex} {s t : Bytes} (r : Bytes) (hs : OptSign s) (hns : ¬ StartsWith isSign (t ++ r)) {n : Nat} (h : L (t ++ r) = some n) (hn : t.length ≤ n) :
    ∃ k, Lex.seq (Lex.byte isSign).opt L (s ++ t ++ r) = some k ∧ (s ++ t).length ≤ k := by
  refine ⟨s.length + n, lex_seq_some.2 ⟨_, n, ?_, ?_, rfl⟩, by rw [List.length_append]; omega⟩
  · rw [List.append_assoc]; exact sign_exact hs hns
  · rw [List.append_assoc, List.drop_left]; exact h

theorem float_lexLong : LexLong Lex.float PointText where
  sound {s n} h := by
    obtain ⟨a, b, h1, h2, rfl⟩ := lex_seq_some.1 h
    have hs := sign_sound h1
    rw [take_add_drop]
    rcases lex_alt_some.1 h2 with h2 | ⟨_, h2⟩
    · obtain ⟨k, m, h3, h4, rfl⟩ := lex_seq_some.1 h2
      obtain ⟨d, e, h5, h6, rfl⟩ := lex_seq_some.1 h4
      obtain ⟨d1, d2, h7, h8, rfl⟩ := lex_seq_some.1 h5
      obtain ⟨rfl, x, s', hx, hxb⟩ := lex_byte_some.1 h7
      have h9 := PointText.point hs (nat_lexLong.sound h3) (mixed_iff.2 (run_sound h8)) (opt_expo_sound h6)
      rw [take_add_drop _ k, take_add_drop _ (1 + d2), take_add_drop _ 1, hx, eq_of_beq hxb]
      rw [hx, eq_of_beq hxb] at h9
      simpa using h9
    · rcases lex_alt_some.1 h2 with h2 | ⟨_, h2⟩
      · obtain ⟨k, m, h3, h4, rfl⟩ := lex_seq_some.1 h2
        obtain ⟨d, e, h5, h6, rfl⟩ := lex_seq_some.1 h4
        obtain ⟨rfl, x, s', hx, hxb⟩ := lex_byte_some.1 h3
        obtain ⟨h7, h8⟩ := run1_run h5
        have hne : (((s.drop a).drop 1).take d) ≠ [] := by
          intro hnil
          rw [hx] at h5 hnil
          cases s' with
          | nil => cases h5
          | cons y s' =>
            cases d with
            | zero => omega
            | succ d => simp at hnil
        have h9 := PointText.bare hs hne (mixed_iff.2 (run_sound h7)) (opt_expo_sound h6)
        rw [take_add_drop _ 1, take_add_drop _ d, hx, eq_of_beq hxb]
        rw [hx, eq_of_beq hxb] at h9
        simpa using h9
      · obtain ⟨k, m, h3, h4, rfl⟩ := lex_seq_some.1 h2
        rw [take_add_drop _ k, ← List.append_assoc]
        exact .power hs (nat_lexLong.sound h3) (expo_lexLong.sound h4)
  long r h := by
    cases h with
    | point hs hw hf he =>
      rename_i s w f e
      obtain ⟨a, b, h1, h2, h3, h4⟩ := fraction_long r hf he
      have h5 : Lex.nat (w ++ (0x2e :: (f ++ (e ++ r)))) = some w.length := nat_stops hw point_not_dec
      have h6 : Lex.seq (Lex.byte (· == 0x2e)) (Lex.run (or_ isDec)) (0x2e :: (f ++ (e ++ r))) = some (1 + a) := seq_cons rfl h1
      have h7 : Lex.seq Lex.nat (Lex.seq (Lex.seq (Lex.byte (· == 0x2e)) (Lex.run (or_ isDec))) Lex.expo.opt) (w ++ (0x2e :: (f ++ (e ++ r)))) =
          some (w.length + (1 + a + b)) :=
        lex_seq_some.2 ⟨_, _, h5, lex_seq_some.2 ⟨1 + a, b, by rw [List.drop_left]; exact h6,
          by rw [List.drop_left, Nat.add_comm, List.drop_succ_cons]; exact h2, rfl⟩, rfl⟩
      have h8 := signed_long (t := w ++ 0x2e :: f ++ e) r hs (by rw [List.append_assoc, List.append_assoc]; exact whole_no_sign hw _)
        (L := Lex.alt (Lex.seq Lex.nat (Lex.seq (Lex.seq (Lex.byte (· == 0x2e)) (Lex.run (or_ isDec))) Lex.expo.opt))
          (Lex.alt (Lex.seq (Lex.byte (· == 0x2e)) (Lex.seq (Lex.run1 (or_ isDec)) Lex.expo.opt)) (Lex.seq Lex.nat Lex.expo)))
        (n := w.length + (1 + a + b))
        (lex_alt_some.2 (.inl (by simpa using h7))) (by simp only [List.length_append, List.length_cons]; omega)
      simpa [Lex.float] using h8
    | bare hs hne hf he =>
      rename_i s f e
      obtain ⟨a, b, h1, h2, h3, h4⟩ := fraction_long r hf he
      have ha : 0 < a := Nat.lt_of_lt_of_le (List.length_pos_iff.2 hne) h3
      have h5 : Lex.seq (Lex.byte (· == 0x2e)) (Lex.seq (Lex.run1 (or_ isDec)) Lex.expo.opt) (0x2e :: (f ++ (e ++ r))) = some (1 + (a + b)) :=
        seq_cons rfl (lex_seq_some.2 ⟨a, b, run1_of_run h1 ha, h2, rfl⟩)
      have h6 : Lex.seq Lex.nat (Lex.seq (Lex.seq (Lex.byte (· == 0x2e)) (Lex.run (or_ isDec))) Lex.expo.opt) (0x2e :: (f ++ (e ++ r))) = none := by
        unfold Lex.seq; rw [nat_point]
      have h8 := signed_long (t := 0x2e :: f ++ e) r hs point_no_sign
        (L := Lex.alt (Lex.seq Lex.nat (Lex.seq (Lex.seq (Lex.byte (· == 0x2e)) (Lex.run (or_ isDec))) Lex.expo.opt))
          (Lex.alt (Lex.seq (Lex.byte (· == 0x2e)) (Lex.seq (Lex.run1 (or_ isDec)) Lex.expo.opt)) (Lex.seq Lex.nat Lex.expo)))
        (n := 1 + (a + b))
        (lex_alt_some.2 (.inr ⟨by simpa using h6, lex_alt_some.2 (.inl (by simpa using h5))⟩)) (by simp only [List.length_append, List.length_cons]; omega)
      simpa [Lex.float] using h8
    | power hs hw he =>
      rename_i s w e
      obtain ⟨n, h1, h2⟩ := expo_lexLong.long r he
      have h3 : Lex.nat (w ++ (e ++ r)) = some w.length := nat_stops hw (power_head he r)
      have hdot : ∀ M : Lex, Lex.seq (Lex.byte (· == 0x2e)) M (e ++ r) = none := fun M => by
        cases he with
        | mk hx => rcases hx with rfl | rfl <;> rfl
      have h4 : Lex.seq Lex.nat (Lex.seq (Lex.seq (Lex.byte (· == 0x2e)) (Lex.run (or_ isDec))) Lex.expo.opt) (w ++ (e ++ r)) = none := by
        have : Lex.seq (Lex.seq (Lex.byte (· == 0x2e)) (Lex.run (or_ isDec))) Lex.expo.opt (e ++ r) = none := by
          have := hdot (Lex.run (or_ isDec))
          unfold Lex.seq at this ⊢
          rw [this]
        show (match Lex.nat (w ++ (e ++ r)) with | none => none | some n => _) = _
        rw [h3]
        simp only [List.drop_left, this]; rfl
      have h5 : Lex.seq (Lex.byte (· == 0x2e)) (Lex.seq (Lex.run1 (or_ isDec)) Lex.expo.opt) (w ++ (e ++ r)) = none := by
        obtain ⟨d, u, rfl, hd⟩ := whole_head hw
        have : (d == 0x2e) = false := by
          apply beq_false_of_ne
          rintro rfl
          cases hd
        simp [Lex.seq, Lex.byte, this]
      have h6 : Lex.seq Lex.nat Lex.expo (w ++ (e ++ r)) = some (w.length + n) := lex_seq_some.2 ⟨_, n, h3, by rw [List.drop_left]; exact h1, rfl⟩
      have h8 := signed_long (t := w ++ e) r hs (by rw [List.append_assoc]; exact whole_no_sign hw _)
        (L := Lex.alt (Lex.seq Lex.nat (Lex.seq (Lex.seq (Lex.byte (· == 0x2e)) (Lex.run (or_ isDec))) Lex.expo.opt))
          (Lex.alt (Lex.seq (Lex.byte (· == 0x2e)) (Lex.seq (Lex.run1 (or_ isDec)) Lex.expo.opt)) (Lex.seq Lex.nat Lex.expo)))
        (n := w.length + n)
        (by rw [List.append_assoc]; exact lex_alt_some.2 (.inr ⟨h4, lex_alt_some.2 (.inr ⟨h5, h6⟩)⟩)) (by simp only [List.length_append]; omega)
      simpa [Lex.float] using h8

theorem numeric_lexLong : LexLong Lex.numeric NumericText where
  sound {s n} h := by
    obtain ⟨a, b, h1, h2, rfl⟩ := lex_seq_some.1 h
    obtain ⟨b1, b2, h3, h4, rfl⟩ := lex_seq_some.1 h2
    have hs := sign_sound h1
    have he := opt_expo_sound h4
    rw [take_add_drop, take_add_drop _ b1]
    rcases lex_alt_some.1 h3 with h3 | ⟨_, h3⟩
    · obtain ⟨i, f, h5, h6, rfl⟩ := lex_seq_some.1 h3
      have hw := nat_lexLong.sound h5
      unfold Lex.opt at h6
      cases hx : Lex.seq (Lex.byte (· == 0x2e)) (Lex.run (or_ isDec)) (((s.drop a)).drop i) with
      | none =>
        rw [hx] at h6
        cases h6
        cases he' : (List.take b2 (List.drop (i + 0) (List.drop a s))) with
        | nil => rw [List.append_nil]; exact .inl (.mk hs hw)
        | cons y t =>
          rw [he'] at he
          cases he with
          | power he => rw [← List.append_assoc]; exact .inr (.power hs hw he)
      | some k =>
        rw [hx] at h6
        cases h6
        obtain ⟨p, q, h7, h8, rfl⟩ := lex_seq_some.1 hx
        obtain ⟨rfl, x, s', hxs, hxb⟩ := lex_byte_some.1 h7
        have h9 := PointText.point hs hw (mixed_iff.2 (run_sound h8)) he
        refine .inr ?_
        rw [take_add_drop _ i, take_add_drop _ 1, hxs, eq_of_beq hxb]
        rw [hxs, eq_of_beq hxb] at h9
        simpa using h9
    · obtain ⟨p, q, h7, h8, rfl⟩ := lex_seq_some.1 h3
      obtain ⟨rfl, x, s', hxs, hxb⟩ := lex_byte_some.1 h7
      obtain ⟨h5, h6⟩ := run1_run h8
      have hne : (((s.drop a).drop 1).take q) ≠ [] := by
        intro hnil
        rw [hxs] at h8 hnil
        cases s' with
        | nil => cases h8
        | cons y s' =>
          cases q with
          | zero => omega
          | succ d => simp at hnil
      have h9 := PointText.bare hs hne (mixed_iff.2 (run_sound h5)) he
      refine .inr ?_
      rw [take_add_drop _ 1, hxs, eq_of_beq hxb]
      rw [hxs, eq_of_beq hxb] at h9
      simpa using h9
  long {w} r h := by
    rcases h with h | h
    · obtain ⟨n, h1, h2⟩ := integer_lexLong.long r h
      obtain ⟨m, h3, h4⟩ := lex_integer_numeric h1
      exact ⟨m, h3, Nat.le_trans h2 h4⟩
    · obtain ⟨n, h1, h2⟩ := float_lexLong.long r h
      exact ⟨n, lex_float_numeric h1, h2⟩

end Takenoco
