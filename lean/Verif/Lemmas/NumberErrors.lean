import Verif.Lemmas.Strconv
import Verif.Spec.NumberErrors
/-
Which error `strconv.ParseUint` and `strconv.ParseInt` report.
-/
namespace Takenoco
open Spec

/-- The digit loop stops with a range error exactly when some digits at the front make too large a number. -/
theorem parseDigits_range {base : Nat} (hb : base ≤ 36) (s : Bytes) (a : Nat) (ha : a < 2 ^ 64) :
    parseDigits false base a s = .error .range ↔ ∃ p r n, s = p ++ r ∧ Dig base a p n ∧ 2 ^ 64 ≤ n := by
  induction s generalizing a with
  | nil =>
    refine ⟨fun h => by simp [parseDigits] at h, ?_⟩
    rintro ⟨p, r, n, h1, h2, h3⟩
    obtain ⟨rfl, rfl⟩ := List.append_eq_nil_iff.1 h1.symm
    cases h2; omega
  | cons b s ih =>
    unfold parseDigits
    simp only [Bool.false_eq_true, false_and, if_false]
    cases hd : digitVal b with
    | none =>
      refine ⟨fun h => by simp at h, ?_⟩
      rintro ⟨p, r, n, h1, h2, h3⟩
      cases h2 with
      | nil => omega
      | cons h _ => rw [List.cons_append] at h1; cases h1; rw [digitOf_iff hb, hd] at h; cases h.1
    | some v =>
      by_cases hv : base ≤ v
      · simp only [hv, if_true]
        refine ⟨fun h => by simp at h, ?_⟩
        rintro ⟨p, r, n, h1, h2, h3⟩
        cases h2 with
        | nil => omega
        | cons h _ => rw [List.cons_append] at h1; cases h1; rw [digitOf_iff hb, hd] at h; cases h.1; omega
      · have hdig : DigitOf base b v := (digitOf_iff hb b v).2 ⟨hd, by omega⟩
        simp only [hv, if_false]
        by_cases hr : 2 ^ 64 ≤ a * base + v
        · simp only [hr, if_true, true_iff]
          exact ⟨[b], s, _, rfl, .cons hdig .nil, hr⟩
        · simp only [hr, if_false]
          rw [ih _ (by omega)]
          constructor
          · rintro ⟨p, r, n, h1, h2, h3⟩; exact ⟨b :: p, r, n, by rw [h1]; rfl, .cons hdig h2, h3⟩
          · rintro ⟨p, r, n, h1, h2, h3⟩
            cases h2 with
            | nil => omega
            | cons h h' =>
              rw [List.cons_append] at h1; cases h1
              rw [digitOf_iff hb, hd] at h; cases h.1
              exact ⟨_, r, n, rfl, h', h3⟩

theorem parseDigits_kinds (base0 : Bool) (base : Nat) (a : Nat) (s : Bytes) : parseDigits base0 base a s ≠ .error .base := by
  fun_induction parseDigits base0 base a s <;> simp_all

theorem parseUint_range {base : Nat} (h2 : 2 ≤ base) (hb : base ≤ 36) (s : Bytes) :
    parseUint s base = .error .range ↔ Overflows base s := by
  unfold parseUint Overflows
  by_cases hs : s = []
  · simp only [hs, if_true]
    refine ⟨fun h => by simp at h, ?_⟩
    rintro ⟨p, r, n, h1, h3, _⟩
    exact absurd (List.append_eq_nil_iff.1 h1.symm).1 (dig_of_numeral h3).1
  · have hbi : (2 : Int) ≤ base ∧ (base : Int) ≤ 36 := by omega
    rw [if_neg hs, if_pos hbi, Int.toNat_natCast, parseDigits_range hb s 0 (by decide)]
    constructor
    · rintro ⟨p, r, n, h1, h3, h4⟩
      refine ⟨p, r, n, h1, numeral_iff.2 ⟨?_, h3⟩, h4⟩
      rintro rfl; cases h3; simp at h4
    · rintro ⟨p, r, n, h1, h3, h4⟩; exact ⟨p, r, n, h1, (numeral_iff.1 h3).2, h4⟩

theorem parseUint_kinds {base : Nat} (h2 : 2 ≤ base) (hb : base ≤ 36) (s : Bytes) : parseUint s base ≠ .error .base := by
  have hbi : (2 : Int) ≤ base ∧ (base : Int) ≤ 36 := by omega
  unfold parseUint
  rw [if_pos hbi]
  split
  · simp
  · exact parseDigits_kinds _ _ _ _

theorem parseUint_syntax {base : Nat} (h2 : 2 ≤ base) (hb : base ≤ 36) (s : Bytes) :
    parseUint s base = .error .syntax ↔ ¬ Overflows base s ∧ ∀ n, Numeral base s n → 2 ^ 64 ≤ n := by
  rw [← parseUint_range h2 hb]
  have hnb := parseUint_kinds h2 hb s
  have hok := fun n => parseUint_iff h2 hb s n
  cases hp : parseUint s base with
  | ok n => 
    refine ⟨fun h => by simp at h, fun ⟨_, h⟩ => ?_⟩
    have := (hok n).1 hp
    have := h n this.1
    omega
  | error e =>
    have hnone : ∀ n, Numeral base s n → 2 ^ 64 ≤ n := fun n h => Nat.le_of_not_lt fun hlt => by
      rw [(hok n).2 ⟨h, hlt⟩] at hp; cases hp
    cases e with
    | base => exact absurd hp hnb
    | range => simp
    | «syntax» => simpa using hnone

theorem Overflows.head {base : Nat} (hb : base ≤ 36) {b : UInt8} {s : Bytes} (h : Overflows base (b :: s)) : b ≠ 0x2b ∧ b ≠ 0x2d := by
  obtain ⟨p, r, n, h1, h2, _⟩ := h
  cases p with
  | nil => exact absurd rfl (dig_of_numeral h2).1
  | cons x p => rw [List.cons_append] at h1; cases h1; exact h2.head hb

/-- The text behind the sign that `ParseInt` looks for. -/
def behindSign : Bytes → Bytes
  | [] => []
  | c :: cs => if c = 0x2b ∨ c = 0x2d then cs else c :: cs

theorem overflows_behind {base : Nat} (hb : base ≤ 36) (w : Bytes) :
    Overflows base (behindSign w) ↔ ∃ s u, s ∈ [[], b! "+", b! "-"] ∧ w = s ++ u ∧ Overflows base u := by
  cases w with
  | nil =>
    constructor
    · intro h; exact ⟨[], [], by simp, rfl, h⟩
    · rintro ⟨s, u, _, h2, h3⟩
      obtain ⟨rfl, rfl⟩ := List.append_eq_nil_iff.1 h2.symm
      exact h3
  | cons c cs =>
    unfold behindSign
    simp only
    by_cases hc : c = 0x2b ∨ c = 0x2d
    · rw [if_pos hc]
      constructor
      · intro h
        rcases hc with rfl | rfl
        · exact ⟨b! "+", cs, by simp, rfl, h⟩
        · exact ⟨b! "-", cs, by simp, rfl, h⟩
      · rintro ⟨s, u, h1, h2, h3⟩
        simp only [List.mem_cons, List.not_mem_nil, or_false] at h1
        rcases h1 with rfl | rfl | rfl
        · rw [List.nil_append] at h2; rw [← h2] at h3
          have := Overflows.head hb h3
          rcases hc with rfl | rfl <;> simp at this
        · cases h2; exact h3
        · cases h2; exact h3
    · rw [if_neg hc]
      constructor
      · intro h; exact ⟨[], _, by simp, rfl, h⟩
      · rintro ⟨s, u, h1, h2, h3⟩
        simp only [List.mem_cons, List.not_mem_nil, or_false] at h1
        rcases h1 with rfl | rfl | rfl
        · rw [List.nil_append] at h2; rw [h2]; exact h3
        · cases h2; simp at hc
        · cases h2; simp at hc

/-- `ParseInt` in terms of `ParseUint` behind the sign. -/
theorem parseInt_error_iff {w : Bytes} {base : Int} (hne : w ≠ []) {e : NumErr} : parseInt w base = .error e ↔
    parseUint (behindSign w) base = .error e ∨
    e = .range ∧ ∃ un, parseUint (behindSign w) base = .ok un ∧ (if w.head? = some 0x2d then 2 ^ 63 < un else 2 ^ 63 ≤ un) := by
  cases w with
  | nil => exact absurd rfl hne
  | cons c cs =>
    unfold parseInt behindSign
    simp only [List.head?_cons, Option.some.injEq]
    cases hp : parseUint (if c = 0x2b ∨ c = 0x2d then cs else c :: cs) base with
    | error e' => simp
    | ok un =>
      simp only [reduceCtorEq, false_or, Except.ok.injEq, exists_eq_left']
      generalize 2 ^ 63 = lim
      by_cases hm : c = 0x2d
      · by_cases h : lim < un
        · simp only [hm, h, beq_self_eq_true, Bool.not_true, Bool.false_eq_true, false_and, true_and, if_true, if_false, and_true, Except.error.injEq]
          exact eq_comm
        · simp [hm, h]
      · have hm' : (c == 0x2d) = false := by simpa using hm
        by_cases h : lim ≤ un
        · simp only [hm, hm', h, Bool.not_false, true_and, if_true, if_false, and_true, Except.error.injEq]
          exact eq_comm
        · simp [hm, h]

theorem signed_behind {base : Nat} (hb : base ≤ 36) {w : Bytes} (hne : w ≠ []) (v : Int) :
    SignedNumeral base w v ↔ ∃ n : Nat, Numeral base (behindSign w) n ∧ v = if w.head? = some 0x2d then -(n : Int) else n := by
  cases w with
  | nil => exact absurd rfl hne
  | cons c cs =>
    unfold behindSign
    simp only [List.head?_cons, Option.some.injEq]
    constructor
    · intro h
      generalize hs : c :: cs = s at h
      cases h with
      | none h =>
        subst hs
        have := h.head hb
        refine ⟨_, by rw [if_neg (by simp [this])]; exact h, by rw [if_neg this.2]⟩
      | plus h => simp at hs; obtain ⟨rfl, rfl⟩ := hs; exact ⟨_, h, rfl⟩
      | minus h => simp at hs; obtain ⟨rfl, rfl⟩ := hs; exact ⟨_, h, rfl⟩
    · rintro ⟨n, h, rfl⟩
      by_cases hm : c = 0x2d
      · subst hm; exact .minus h
      by_cases hc : c = 0x2b
      · subst hc; exact .plus h
      rw [if_neg (by simp [hm, hc])] at h
      rw [if_neg hm]
      exact .none h

theorem parseInt_range {base : Nat} (h2 : 2 ≤ base) (hb : base ≤ 36) (w : Bytes) : parseInt w base = .error .range ↔
    (∃ v, SignedNumeral base w v ∧ (v < -2 ^ 63 ∨ 2 ^ 63 ≤ v)) ∨ ∃ s u, s ∈ [[], b! "+", b! "-"] ∧ w = s ++ u ∧ Overflows base u := by
  rw [← overflows_behind hb]
  by_cases hne : w = []
  · subst hne
    refine ⟨fun h => by simp [parseInt] at h, ?_⟩
    rintro (⟨v, h, _⟩ | h)
    · generalize hs : ([] : Bytes) = s at h
      cases h with
      | none h => exact absurd hs.symm (dig_of_numeral h).1
      | plus h => cases hs
      | minus h => cases hs
    · rw [← parseUint_range h2 hb] at h; simp [behindSign, parseUint] at h
  · rw [parseInt_error_iff hne, parseUint_range h2 hb]
    constructor
    · rintro (h | ⟨_, un, h, h'⟩)
      · exact .inr h
      · refine .inl ⟨_, (signed_behind hb hne _).2 ⟨un, ((parseUint_iff h2 hb _ un).1 h).1, rfl⟩, ?_⟩
        split at h' <;> rename_i hh <;> simp only [hh, if_true, if_false] <;> omega
    · rintro (⟨v, h, h'⟩ | h)
      · obtain ⟨n, h3, rfl⟩ := (signed_behind hb hne _).1 h
        by_cases h64 : 2 ^ 64 ≤ n
        · exact .inl ⟨behindSign w, [], n, by simp, h3, h64⟩
        · refine .inr ⟨rfl, n, (parseUint_iff h2 hb _ n).2 ⟨h3, by omega⟩, ?_⟩
          split at h' <;> rename_i hh <;> simp only [hh, if_true, if_false] <;> omega
      · exact .inl h

theorem parseInt_kinds {base : Nat} (h2 : 2 ≤ base) (hb : base ≤ 36) (w : Bytes) : parseInt w base ≠ .error .base := by
  by_cases hne : w = []
  · subst hne; simp [parseInt]
  · rw [Ne, parseInt_error_iff hne]
    rintro (h | ⟨h, _⟩)
    · exact parseUint_kinds h2 hb _ h
    · cases h

theorem parse_base {base : Int} (h0 : base ≠ 0) (hb : ¬ (2 ≤ base ∧ base ≤ 36)) (w : Bytes) :
    parseUint w base = (if w = [] then .error .syntax else .error .base) ∧ parseInt w base = (if behindSign w = [] then .error .syntax else .error .base) := by
  have h1 : ∀ w, parseUint w base = (if w = [] then .error .syntax else .error .base) := fun w => by
    unfold parseUint
    rw [if_neg hb, if_neg h0]
  refine ⟨h1 w, ?_⟩
  by_cases hne : w = []
  · subst hne; rfl
  · have := h1 (behindSign w)
    split at this <;> rename_i hu
    · rw [if_pos hu]; exact (parseInt_error_iff hne).2 (.inl this)
    · rw [if_neg hu]; exact (parseInt_error_iff hne).2 (.inl this)

end Takenoco
