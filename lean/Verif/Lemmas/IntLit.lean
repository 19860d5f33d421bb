import Verif.Lemmas.Strconv
import Verif.Spec.IntLit
/-
`strconv.ParseUint` and `ParseInt` with base 0 against the integer literals of the Go language.
-/
namespace Takenoco
open Spec

/-- Digits and underscores after the digits that gave the first number; the flag says that the last character was an underscore. -/
inductive UDig (base : Nat) : Bool → Nat → Bytes → Nat → Prop where
  | nil {a : Nat} : UDig base false a [] a
  | digit {u : Bool} {a v n : Nat} {b : UInt8} {s : Bytes} : DigitOf base b v → UDig base false (a * base + v) s n → UDig base u a (b :: s) n
  | under {a n : Nat} {s : Bytes} : UDig base true a s n → UDig base false a (0x5f :: s) n

theorem UDig.snoc {base a n v : Nat} {u : Bool} {s : Bytes} {b : UInt8} (h : UDig base u a s n) (hb : DigitOf base b v) :
    UDig base u a (s ++ [b]) (n * base + v) := by
  induction h with
  | nil => exact .digit hb .nil
  | digit h' _ ih => exact .digit h' ih
  | under _ ih => exact .under ih

theorem UDig.snoc_under {base a n v : Nat} {u : Bool} {s : Bytes} {b : UInt8} (h : UDig base u a s n) (hb : DigitOf base b v) :
    UDig base u a (s ++ b! "_" ++ [b]) (n * base + v) := by
  induction h with
  | nil => exact .under (.digit hb .nil)
  | digit h' _ ih => exact .digit h' ih
  | under _ ih => exact .under ih

theorem udig_of_uDigits {base n : Nat} {s : Bytes} (h : UDigits base s n) : UDig base true 0 s n := by
  induction h with
  | digit h => exact .digit h (by rw [Nat.zero_mul, Nat.zero_add]; exact .nil)
  | snoc _ h ih => exact ih.snoc h
  | under _ h ih => exact ih.snoc_under h

theorem uDigits_append {base a n : Nat} {u : Bool} {s t : Bytes} (ht : UDig base u a t n) (h : UDigits base s a) :
    UDigits base (s ++ (if u then b! "_" else []) ++ t) n := by
  induction ht generalizing s with
  | nil => simpa using h
  | @digit u a v n b t h' _ ih =>
    cases u with
    | false => have := ih (h.snoc h'); simpa using this
    | true => have := ih (h.under h'); simpa using this
  | under _ ih => have := ih h; simpa using this

theorem uDigits_iff {base n : Nat} {s : Bytes} : UDigits base s n ↔ UDig base true 0 s n := by
  refine ⟨udig_of_uDigits, fun h => ?_⟩
  cases h with
  | digit h h' =>
    rw [Nat.zero_mul, Nat.zero_add] at h'
    simpa using uDigits_append h' (.digit h)

/-- What may come after the 0 and the letter. -/
theorem uDigits_after {base n : Nat} {s : Bytes} : (s ≠ [] ∧ UDig base false 0 s n) ↔ UDigits base s n ∨ ∃ t, s = 0x5f :: t ∧ UDigits base t n := by
  simp only [uDigits_iff]
  constructor
  · rintro ⟨h0, h⟩
    cases h with
    | nil => exact absurd rfl h0
    | digit h h' => exact .inl (.digit h h')
    | under h => exact .inr ⟨_, rfl, h⟩
  · rintro (h | ⟨t, rfl, h⟩)
    · cases h with
      | digit h h' => exact ⟨by simp, .digit h h'⟩
    · exact ⟨by simp, .under h⟩

theorem UDig.le {base a n : Nat} {u : Bool} {s : Bytes} (hb : 0 < base) (h : UDig base u a s n) : a ≤ n := by
  induction h with
  | nil => exact Nat.le_refl _
  | digit _ _ ih => exact Nat.le_trans (Nat.le_trans (Nat.le_mul_of_pos_right _ hb) (Nat.le_add_right _ _)) ih
  | under _ ih => exact ih

theorem not_under {base v : Nat} (hb : base ≤ 36) {b : UInt8} (h : DigitOf base b v) : b ≠ 0x5f := by
  rintro rfl
  have := ((digitOf_iff hb _ _).1 h).1
  simp [digitVal] at this

/-- The loop of `underscoreOK` knows the digits of the base. -/
def LoopDigits (hex : Bool) (base : Nat) : Prop := (hex = true ∧ base = 16) ∨ base ≤ 10

theorem loop_digit {hex : Bool} {base v : Nat} (hx : LoopDigits hex base) {b : UInt8} (h : DigitOf base b v) (saw : Saw) (s : Bytes) :
    underscoreLoop hex saw (b :: s) = underscoreLoop hex .digit s := by
  have h36 : base ≤ 36 := by rcases hx with ⟨_, h⟩ | h <;> omega
  have h1 := (digitOf_iff h36 b v).1 h
  conv => lhs; unfold underscoreLoop
  simp only
  rw [if_pos]
  unfold digitVal at h1
  simp only at h1
  rcases hx with ⟨rfl, h⟩ | h
  · split at h1
    · exact .inl ‹_›
    · split at h1
      · have := Option.some.inj h1.1
        exact .inr ⟨rfl, .inl (by omega)⟩
      · split at h1
        · have := Option.some.inj h1.1
          exact .inr ⟨rfl, .inr (by omega)⟩
        · cases h1.1
  · split at h1
    · exact .inl ‹_›
    · split at h1
      · have := Option.some.inj h1.1; omega
      · split at h1
        · have := Option.some.inj h1.1; omega
        · cases h1.1

theorem loop_under (hex : Bool) (saw : Saw) (s : Bytes) :
    underscoreLoop hex saw (0x5f :: s) = if saw ≠ .digit then false else underscoreLoop hex .underscore s := by
  conv => lhs; unfold underscoreLoop
  simp

/-- The digit loop together with the check of the underscores. -/
theorem parseDigits_under {hex : Bool} {base : Nat} (hx : LoopDigits hex base) (h0 : 0 < base) (s : Bytes) (u : Bool) (a n : Nat) (ha : a < 2 ^ 64) :
    (parseDigits true base a s = .ok n ∧ underscoreLoop hex (if u then .underscore else .digit) s = true) ↔ UDig base u a s n ∧ n < 2 ^ 64 := by
  have hb : base ≤ 36 := by rcases hx with ⟨_, h⟩ | h <;> omega
  induction s generalizing a u with
  | nil =>
    cases u with
    | false =>
      constructor
      · rintro ⟨h, _⟩; cases h; exact ⟨.nil, ha⟩
      · rintro ⟨h, _⟩; cases h; exact ⟨rfl, rfl⟩
    | true =>
      constructor
      · rintro ⟨_, h⟩; cases h
      · rintro ⟨h, _⟩; cases h
  | cons b s ih =>
    by_cases hu : b = 0x5f
    · subst hu
      rw [loop_under]
      have e : parseDigits true base a (0x5f :: s) = parseDigits true base a s := by
        conv => lhs; unfold parseDigits
        simp
      rw [e]
      cases u with
      | true =>
        constructor
        · rintro ⟨_, h⟩; simp at h
        · rintro ⟨h, _⟩
          cases h with
          | digit h _ => exact absurd rfl (not_under hb h)
      | false =>
        have := ih true a ha
        simp only [if_true] at this
        simp only [Bool.false_eq_true, if_false, ne_eq, not_true_eq_false]
        refine this.trans ?_
        constructor
        · rintro ⟨h, h'⟩; exact ⟨.under h, h'⟩
        · rintro ⟨h, h'⟩
          cases h with
          | digit h _ => exact absurd rfl (not_under hb h)
          | under h => exact ⟨h, h'⟩
    · unfold parseDigits
      simp only [hu, and_false, if_false]
      have hno : ∀ {P : Prop}, (∀ v, ¬ DigitOf base b v) → UDig base u a (b :: s) n → P := by
        intro P h h'
        cases h' with
        | digit h1 _ => exact absurd h1 (h _)
        | under _ => exact absurd rfl hu
      cases hd : digitVal b with
      | none =>
        refine ⟨fun h => by simp at h, fun ⟨h, _⟩ => hno (fun v h => ?_) h⟩
        rw [digitOf_iff hb, hd] at h; cases h.1
      | some v =>
        by_cases hv : base ≤ v
        · simp only [hv, if_true]
          refine ⟨fun h => by simp at h, fun ⟨h, _⟩ => hno (fun v' h => ?_) h⟩
          rw [digitOf_iff hb, hd] at h; cases h.1; omega
        · have hdig : DigitOf base b v := (digitOf_iff hb b v).2 ⟨hd, by omega⟩
          have huniq : ∀ v', DigitOf base b v' → v' = v := fun v' h => by
            rw [digitOf_iff hb, hd] at h; exact (Option.some.inj h.1).symm
          simp only [hv, if_false]
          by_cases hr : 2 ^ 64 ≤ a * base + v
          · simp only [hr, if_true]
            refine ⟨fun h => by simp at h, fun ⟨h, hn⟩ => ?_⟩
            cases h with
            | digit h h' =>
              rw [huniq _ h] at h'
              have := h'.le h0
              omega
            | under _ => exact absurd rfl hu
          · simp only [hr, if_false]
            rw [loop_digit hx hdig]
            have := ih false (a * base + v) (by omega)
            simp only [Bool.false_eq_true, if_false] at this
            refine this.trans ?_
            constructor
            · rintro ⟨h, hn⟩; exact ⟨.digit hdig h, hn⟩
            · rintro ⟨h, hn⟩
              cases h with
              | digit h h' => rw [huniq _ h] at h'; exact ⟨h', hn⟩
              | under _ => exact absurd rfl hu

theorem loop_no_under (hex : Bool) (s : Bytes) (saw : Saw) (hs : saw ≠ .underscore) (h : (0x5f : UInt8) ∉ s) : underscoreLoop hex saw s = true := by
  induction s generalizing saw with
  | nil => simpa [underscoreLoop] using hs
  | cons b s ih =>
    simp only [List.mem_cons, not_or] at h
    unfold underscoreLoop
    simp only
    split
    · exact ih _ (by simp) h.2
    · rw [if_neg (fun e => h.1 e.symm)]
      exact ih _ (by simp) h.2

/-- The result of `ParseUint` with base 0, once the base is known. -/
theorem base0_result {hex : Bool} {base : Nat} (hx : LoopDigits hex base) (h0 : 0 < base) (s t : Bytes) (n : Nat)
    (hok : ((0x5f : UInt8) ∈ t) → underscoreOK s = underscoreLoop hex .digit t) :
    (match parseDigits true base 0 t with
      | .error e => (.error e : NumRes Nat)
      | .ok n => if t.contains 0x5f ∧ !underscoreOK s then .error .syntax else .ok n) = .ok n ↔ UDig base false 0 t n ∧ n < 2 ^ 64 := by
  have key := parseDigits_under hx h0 t false 0 n (by decide)
  simp only [Bool.false_eq_true, if_false] at key
  rw [← key]
  cases hp : parseDigits true base 0 t with
  | error e => simp
  | ok k =>
    by_cases hc : (0x5f : UInt8) ∈ t
    · rw [hok hc]
      cases hl : underscoreLoop hex .digit t <;> simp [hc]
    · simp [hc, loop_no_under hex t .digit (by simp) hc]

/-- The literals that begin with a 0. -/
theorem intLit_zero {cs : Bytes} {n : Nat} : IntLit (0x30 :: cs) n ↔
    UDig 8 false 0 cs n ∨ ∃ l t base, l ≠ [] ∧ BaseLetter l base ∧ cs = l ++ t ∧ t ≠ [] ∧ UDig base false 0 t n := by
  constructor
  · intro h
    generalize hs : (0x30 : UInt8) :: cs = s at h
    cases h with
    | zero => cases hs; exact .inl .nil
    | decimal _ h => rw [← hs] at h; exact absurd rfl h
    | @based l t base _ hl ht =>
      have ht := uDigits_after.2 (.inl ht)
      simp at hs
      by_cases he : l = []
      · subst he; cases hl; subst hs; exact .inl ht.2
      · exact .inr ⟨l, t, base, he, hl, hs, ht⟩
    | @basedUnder l t base _ hl ht =>
      have ht := uDigits_after.2 (.inr ⟨t, rfl, ht⟩)
      simp at hs
      by_cases he : l = []
      · subst he; cases hl; subst hs; exact .inl ht.2
      · exact .inr ⟨l, _, base, he, hl, hs, ht⟩
  · have key : ∀ {l t : Bytes} {base : Nat}, BaseLetter l base → t ≠ [] → UDig base false 0 t n → IntLit (0x30 :: (l ++ t)) n := by
      intro l t base hl h0 ht
      rcases uDigits_after.1 ⟨h0, ht⟩ with h | ⟨t, rfl, h⟩
      · exact .based hl h
      · have := IntLit.basedUnder hl h
        simpa using this
    rintro (h | ⟨l, t, base, _, hl, rfl, h0, ht⟩)
    · by_cases h0 : cs = []
      · subst h0; cases h; exact .zero
      · exact key .octal h0 h
    · exact key hl h0 ht

/-- The literals that do not. -/
theorem intLit_decimal {c : UInt8} {cs : Bytes} {n : Nat} (hc : c ≠ 0x30) : IntLit (c :: cs) n ↔ UDig 10 true 0 (c :: cs) n := by
  constructor
  · intro h
    generalize hs : c :: cs = s at h
    cases h with
    | zero => simp at hs; exact absurd hs.1 hc
    | decimal h _ => exact uDigits_iff.1 h
    | based _ _ => simp at hs; exact absurd hs.1 hc
    | basedUnder _ _ => simp at hs; exact absurd hs.1 hc
  · intro h
    exact .decimal (uDigits_iff.2 h) (by simpa using hc)

theorem intLit_ne {s : Bytes} {n : Nat} (h : IntLit s n) : s ≠ [] := by
  cases h with
  | zero => simp
  | decimal h _ =>
    rintro rfl
    have := udig_of_uDigits h
    cases this
  | based => simp
  | basedUnder => simp

theorem letter_cases {l : Bytes} {base : Nat} (h : BaseLetter l base) (h0 : l ≠ []) :
    ∃ c, l = [c] ∧ (((c = 0x62 ∨ c = 0x42) ∧ base = 2) ∨ ((c = 0x6f ∨ c = 0x4f) ∧ base = 8) ∨ ((c = 0x78 ∨ c = 0x58) ∧ base = 16)) := by
  cases h with
  | octal => exact absurd rfl h0
  | b => exact ⟨_, rfl, by decide⟩
  | B => exact ⟨_, rfl, by decide⟩
  | o => exact ⟨_, rfl, by decide⟩
  | O => exact ⟨_, rfl, by decide⟩
  | x => exact ⟨_, rfl, by decide⟩
  | X => exact ⟨_, rfl, by decide⟩

theorem not_octal {c : UInt8} {t : Bytes} {n a : Nat} (hc : c = 0x62 ∨ c = 0x42 ∨ c = 0x6f ∨ c = 0x4f ∨ c = 0x78 ∨ c = 0x58) :
    ¬ UDig 8 false a (c :: t) n := by
  intro h
  cases h with
  | digit h _ =>
    have := (digitOf_iff (by decide) _ _).1 h
    rcases hc with rfl | rfl | rfl | rfl | rfl | rfl <;> · simp [digitVal] at this; omega
  | under => simp at hc

theorem parseUint_base0 {s : Bytes} (hs : s ≠ []) {hex : Bool} {base : Nat} {t : Bytes} (hd : detectBase s = (base, t)) (hx : LoopDigits hex base)
    (h0 : 0 < base) (hok : ((0x5f : UInt8) ∈ t) → underscoreOK s = underscoreLoop hex .digit t) (n : Nat) :
    parseUint s 0 = .ok n ↔ UDig base false 0 t n ∧ n < 2 ^ 64 := by
  unfold parseUint
  rw [if_neg hs, if_neg (by decide), if_pos rfl, hd]
  exact base0_result hx h0 s t n hok

/-- `ParseUint` with base 0 reads the integer literals of Go. -/
theorem parseUint_zero (s : Bytes) (n : Nat) : parseUint s 0 = .ok n ↔ IntLit s n ∧ n < 2 ^ 64 := by
  cases s with
  | nil => exact ⟨fun h => by simp [parseUint] at h, fun h => absurd rfl (intLit_ne h.1)⟩
  | cons c cs =>
    by_cases hc : c = 0x30
    · subst hc
      rw [intLit_zero]
      -- the base is 8 without a letter
      have plain : (∀ l t base, l ≠ [] → BaseLetter l base → cs = l ++ t → t ≠ [] → False) → detectBase (0x30 :: cs) = (8, cs) →
          ((0x5f : UInt8) ∈ cs → underscoreOK (0x30 :: cs) = underscoreLoop false .digit cs) →
          (parseUint (0x30 :: cs) 0 = .ok n ↔ (UDig 8 false 0 cs n ∨
            ∃ l t base, l ≠ [] ∧ BaseLetter l base ∧ cs = l ++ t ∧ t ≠ [] ∧ UDig base false 0 t n) ∧ n < 2 ^ 64) := by
        intro h h' h''
        refine (parseUint_base0 (by simp) h' (.inr (by decide)) (by decide) h'' n).trans (and_congr_left fun _ => ⟨.inl, fun h2 => ?_⟩)
        rcases h2 with h2 | ⟨l, t, base, h0, hl, he, ht, _⟩
        · exact h2
        · exact absurd (h l t base h0 hl he ht) id
      have letter : ∀ {c1 : UInt8} {t : Bytes} {base : Nat} {hex : Bool}, cs = c1 :: t → t ≠ [] →
          c1 = 0x62 ∨ c1 = 0x42 ∨ c1 = 0x6f ∨ c1 = 0x4f ∨ c1 = 0x78 ∨ c1 = 0x58 →
          (∀ base', BaseLetter [c1] base' ↔ base' = base) → detectBase (0x30 :: cs) = (base, t) → LoopDigits hex base → 0 < base →
          underscoreOK (0x30 :: cs) = underscoreLoop hex .digit t →
          (parseUint (0x30 :: cs) 0 = .ok n ↔ (UDig 8 false 0 cs n ∨
            ∃ l t base, l ≠ [] ∧ BaseLetter l base ∧ cs = l ++ t ∧ t ≠ [] ∧ UDig base false 0 t n) ∧ n < 2 ^ 64) := by
        intro c1 t base hex e ht hc1 hl hd hx h0 hok
        refine (parseUint_base0 (by simp) hd hx h0 (fun _ => hok) n).trans (and_congr_left fun _ => ⟨fun h => .inr ⟨[c1], t, base, by simp, (hl _).2 rfl, e, ht, h⟩, ?_⟩)
        rintro (h | ⟨l, t', base', h0, hl', he, ht', h⟩)
        · rw [e] at h; exact absurd h (not_octal hc1)
        · obtain ⟨c, rfl, _⟩ := letter_cases hl' h0
          rw [e] at he
          simp at he
          obtain ⟨rfl, rfl⟩ := he
          rw [(hl _).1 hl'] at h
          exact h
      have start : underscoreLoop false .start (0x30 :: cs) = underscoreLoop false .digit cs :=
        loop_digit (base := 10) (.inr (Nat.le_refl _)) (v := 0) ⟨by decide, .inl (by decide)⟩ _ _
      rcases cs with _ | ⟨c1, _ | ⟨c2, cs⟩⟩
      · refine plain (fun l t base h0 hl he ht => ?_) rfl (fun h => by simp at h)
        simp at he; exact h0 he.1
      · refine plain (fun l t base h0 hl he ht => ?_) rfl (fun h => ?_)
        · obtain ⟨c, rfl, _⟩ := letter_cases hl h0
          simp at he; exact ht he.2
        · simp at h; subst h
          exact start
      · by_cases h : c1 = 0x62 ∨ c1 = 0x42 ∨ c1 = 0x6f ∨ c1 = 0x4f ∨ c1 = 0x78 ∨ c1 = 0x58
        · have hl : ∀ base', BaseLetter [c1] base' → _ := fun base' h => letter_cases h (by simp)
          rcases h with rfl | rfl | rfl | rfl | rfl | rfl
          · exact letter (base := 2) (hex := false) rfl (by simp) (by decide) (fun b => ⟨fun h => by cases h; rfl, fun h => h ▸ .b⟩) rfl (.inr (by decide)) (by decide) rfl
          · exact letter (base := 2) (hex := false) rfl (by simp) (by decide) (fun b => ⟨fun h => by cases h; rfl, fun h => h ▸ .B⟩) rfl (.inr (by decide)) (by decide) rfl
          · exact letter (base := 8) (hex := false) rfl (by simp) (by decide) (fun b => ⟨fun h => by cases h; rfl, fun h => h ▸ .o⟩) rfl (.inr (by decide)) (by decide) rfl
          · exact letter (base := 8) (hex := false) rfl (by simp) (by decide) (fun b => ⟨fun h => by cases h; rfl, fun h => h ▸ .O⟩) rfl (.inr (by decide)) (by decide) rfl
          · exact letter (base := 16) (hex := true) rfl (by simp) (by decide) (fun b => ⟨fun h => by cases h; rfl, fun h => h ▸ .x⟩) rfl (.inl ⟨rfl, rfl⟩) (by decide) rfl
          · exact letter (base := 16) (hex := true) rfl (by simp) (by decide) (fun b => ⟨fun h => by cases h; rfl, fun h => h ▸ .X⟩) rfl (.inl ⟨rfl, rfl⟩) (by decide) rfl
        · simp only [not_or] at h
          obtain ⟨h1, h2, h3, h4, h5, h6⟩ := h
          refine plain (fun l t base h0 hl he ht => ?_) ?_ (fun _ => ?_)
          · obtain ⟨c, rfl, hc⟩ := letter_cases hl h0
            simp at he
            obtain ⟨rfl, _⟩ := he
            simp_all
          · simp [detectBase, h1, h2, h3, h4, h5, h6]
          · unfold underscoreOK
            simp only [h1, h2, h3, h4, h5, h6, or_false, and_false, if_false]
            exact start
    · rw [intLit_decimal hc]
      have hd : detectBase (c :: cs) = (10, c :: cs) := by simp [detectBase, hc]
      have hok : underscoreOK (c :: cs) = underscoreLoop false .start (c :: cs) := by
        cases cs with
        | nil => rfl
        | cons c1 cs => simp [underscoreOK, hc]
      unfold parseUint
      rw [if_neg (by simp), if_neg (by decide), if_pos rfl, hd, hok]
      have key := parseDigits_under (hex := false) (base := 10) (.inr (by decide)) (by decide) (c :: cs) true 0 n (by decide)
      simp only [if_true] at key
      rw [← key]
      have hloop : c ≠ 0x5f → parseDigits true 10 0 (c :: cs) = .ok n →
          underscoreLoop false .start (c :: cs) = underscoreLoop false .underscore (c :: cs) := by
        intro hu hp
        unfold parseDigits at hp
        simp only [hu, and_false, if_false] at hp
        cases hdv : digitVal c with
        | none => rw [hdv] at hp; simp at hp
        | some v =>
          rw [hdv] at hp
          by_cases hv : 10 ≤ v
          · simp [hv] at hp
          · have hdig : DigitOf 10 c v := (digitOf_iff (by decide) c v).2 ⟨hdv, by omega⟩
            rw [loop_digit (.inr (Nat.le_refl _)) hdig, loop_digit (.inr (Nat.le_refl _)) hdig]
      cases hp : parseDigits true 10 0 (c :: cs) with
      | error e => simp
      | ok k =>
        by_cases hu : c = 0x5f
        · subst hu
          rw [loop_under, loop_under]
          simp
        · constructor
          · intro h
            have hk : k = n := by
              simp only at h
              split at h
              · cases h
              · cases h; rfl
            subst hk
            refine ⟨rfl, ?_⟩
            rw [← hloop hu hp]
            by_cases hm : (0x5f : UInt8) ∈ c :: cs
            · cases hl : underscoreLoop false .start (c :: cs) with
              | true => rfl
              | false =>
                rw [hl] at h
                have hm' : (c :: cs).contains 0x5f = true := by simpa using hm
                simp only [hm', Bool.not_false, and_self, if_true] at h
                cases h
            · exact loop_no_under false _ .start (by simp) hm
          · rintro ⟨h, h'⟩
            cases h
            rw [← hloop hu hp] at h'
            simp [h']

theorem UDig.unique {base a n m : Nat} (hb : base ≤ 36) {u : Bool} {s : Bytes} (h : UDig base u a s n) (h' : UDig base u a s m) : n = m := by
  induction h generalizing m with
  | nil => cases h'; rfl
  | digit h1 _ ih =>
    cases h' with
    | digit h2 h3 =>
      have : (some _ : Option Nat) = some _ := ((digitOf_iff hb _ _).1 h1).1.symm.trans ((digitOf_iff hb _ _).1 h2).1
      cases this
      exact ih h3
    | under _ => exact absurd rfl (not_under hb h1)
  | under _ ih =>
    cases h' with
    | digit h _ => exact absurd rfl (not_under hb h)
    | under h => exact ih h

/-- A literal has one value. -/
theorem Spec.IntLit.unique {s : Bytes} {n m : Nat} (h : IntLit s n) (h' : IntLit s m) : n = m := by
  cases s with
  | nil => exact absurd rfl (intLit_ne h)
  | cons c cs =>
    by_cases hc : c = 0x30
    · subst hc
      rw [intLit_zero] at h h'
      have hl : ∀ {l base}, BaseLetter l base → l ≠ [] → ∃ c, l = [c] ∧ (c = 0x62 ∨ c = 0x42 ∨ c = 0x6f ∨ c = 0x4f ∨ c = 0x78 ∨ c = 0x58) := by
        intro l base h h0
        obtain ⟨c, e, h⟩ := letter_cases h h0
        refine ⟨c, e, ?_⟩
        rcases h with ⟨h | h, _⟩ | ⟨h | h, _⟩ | ⟨h | h, _⟩ <;> simp [h]
      rcases h with h | ⟨l, t, base, h0, hb, e, ht, h⟩ <;> rcases h' with h' | ⟨l', t', base', h0', hb', e', ht', h'⟩
      · exact h.unique (by decide) h'
      · obtain ⟨c, rfl, hc⟩ := hl hb' h0'
        subst e'
        exact absurd h (not_octal hc)
      · obtain ⟨c, rfl, hc⟩ := hl hb h0
        subst e
        exact absurd h' (not_octal hc)
      · obtain ⟨c, rfl, hc⟩ := letter_cases hb h0
        obtain ⟨c', rfl, hc'⟩ := letter_cases hb' h0'
        subst e
        simp at e'
        obtain ⟨rfl, rfl⟩ := e'
        have hbb : base = base' := by cases hb <;> cases hb' <;> rfl
        subst hbb
        exact h.unique (by rcases hc with ⟨_, h⟩ | ⟨_, h⟩ | ⟨_, h⟩ <;> omega) h'
    · rw [intLit_decimal hc] at h h'
      exact h.unique (by decide) h'

theorem Spec.IntLit.head {b : UInt8} {s : Bytes} {n : Nat} (h : IntLit (b :: s) n) : b ≠ 0x2b ∧ b ≠ 0x2d := by
  by_cases hb : b = 0x30
  · subst hb; decide
  · rw [intLit_decimal hb] at h
    cases h with
    | digit h _ =>
      have := ((digitOf_iff (by decide) _ _).1 h).1
      constructor
      · rintro rfl; simp [digitVal] at this
      · rintro rfl; simp [digitVal] at this

/-- `ParseInt` with base 0 reads the integer literals of Go, with a sign. -/
theorem parseInt_zero (s : Bytes) (v : Int) : parseInt s 0 = .ok v ↔ SignedIntLit s v ∧ -2 ^ 63 ≤ v ∧ v < 2 ^ 63 := by
  cases s with
  | nil =>
    refine ⟨fun h => by simp [parseInt] at h, fun ⟨h, _⟩ => ?_⟩
    generalize hs : ([] : Bytes) = s at h
    cases h with
    | none h => exact absurd hs.symm (intLit_ne h)
    | plus h => simp at hs
    | minus h => simp at hs
  | cons c cs =>
    have hsn : SignedIntLit (c :: cs) v ↔ ∃ n : Nat, IntLit (if c = 0x2b ∨ c = 0x2d then cs else c :: cs) n ∧ v = if c = 0x2d then -(n : Int) else n := by
      constructor
      · intro h
        generalize hs : c :: cs = s at h
        cases h with
        | @none _ n h =>
          subst hs
          refine ⟨n, ?_, ?_⟩
          · rw [if_neg (by simp [h.head])]; exact h
          · rw [if_neg h.head.2]
        | @plus _ n h => simp at hs; obtain ⟨rfl, rfl⟩ := hs; exact ⟨n, by simpa using h, by simp⟩
        | @minus _ n h => simp at hs; obtain ⟨rfl, rfl⟩ := hs; exact ⟨n, by simpa using h, by simp⟩
      · rintro ⟨n, h, rfl⟩
        by_cases h1 : c = 0x2d
        · subst h1
          simp only [or_true, if_true] at h ⊢
          exact .minus h
        · rw [if_neg h1]
          by_cases h2 : c = 0x2b
          · subst h2
            simp only [true_or, if_true] at h
            exact .plus h
          · rw [if_neg (by simp [h1, h2])] at h
            exact .none h
    rw [hsn]
    unfold parseInt
    simp only
    generalize (if c = 0x2b ∨ c = 0x2d then cs else c :: cs) = body
    cases hp : parseUint body 0 with
    | error e =>
      refine ⟨fun h => by simp at h, fun ⟨⟨n, hn, hv⟩, h1, h2⟩ => ?_⟩
      have := (parseUint_zero body n).2 ⟨hn, by split at hv <;> omega⟩
      rw [hp] at this; cases this
    | ok un =>
      obtain ⟨hn, hlt⟩ := (parseUint_zero body un).1 hp
      have huniq : ∀ n, IntLit body n → n = un := fun n h => h.unique hn
      simp only
      by_cases h1 : c = 0x2d
      · simp only [h1, beq_self_eq_true, Bool.not_true, Bool.false_eq_true, false_and, if_false, true_and, if_true]
        by_cases h63 : 2 ^ 63 < un
        · simp only [h63, if_true]
          refine ⟨fun h => by simp at h, fun ⟨⟨n, hn', hv⟩, h1, _⟩ => ?_⟩
          have := huniq n hn'
          omega
        · simp only [h63, if_false]
          constructor
          · intro h; cases h; exact ⟨⟨un, hn, rfl⟩, by omega, by omega⟩
          · rintro ⟨⟨n, hn', hv⟩, _, _⟩
            rw [huniq n hn'] at hv; subst hv; rfl
      · have hbq : (c == 0x2d) = false := by simpa using h1
        simp only [h1, hbq, Bool.not_false, true_and, Bool.false_eq_true, if_false, false_and]
        by_cases h63 : 2 ^ 63 ≤ un
        · simp only [h63, if_true]
          refine ⟨fun h => by simp at h, fun ⟨⟨n, hn', hv⟩, h1, _⟩ => ?_⟩
          have := huniq n hn'
          omega
        · simp only [h63, if_false]
          constructor
          · intro h; cases h; exact ⟨⟨un, hn, rfl⟩, by omega, by omega⟩
          · rintro ⟨⟨n, hn', hv⟩, _, _⟩
            rw [huniq n hn'] at hv; subst hv; rfl

/-- Other bases are errors. -/
theorem parseUint_other {base : Int} (h0 : base ≠ 0) (hb : ¬ (2 ≤ base ∧ base ≤ 36)) (s : Bytes) : ∃ e, parseUint s base = .error e := by
  unfold parseUint
  rw [if_neg hb, if_neg h0]
  split <;> exact ⟨_, rfl⟩

theorem parseInt_other {base : Int} (h0 : base ≠ 0) (hb : ¬ (2 ≤ base ∧ base ≤ 36)) (s : Bytes) : ∃ e, parseInt s base = .error e := by
  cases s with
  | nil => exact ⟨_, rfl⟩
  | cons c cs =>
    unfold parseInt
    simp only
    obtain ⟨e, he⟩ := parseUint_other h0 hb (if c = 0x2b ∨ c = 0x2d then cs else c :: cs)
    rw [he]
    exact ⟨_, rfl⟩

end Takenoco
