import Verif.Lemmas.Extra
import Verif.Lemmas.Eval
/-
C46, C47, C53: number literals and identifiers of package extra.
-/
namespace Takenoco
open Spec Extra

section
variable {env : Env}

/-! ### C46 -/

/-- The parser for a literal of digits `D`: it matches iff a digit comes next, consumes the maximal run of digits and
underscores, and yields the digits. -/
def DigitLiteral (p : Sem) (D : UInt8 → Bool) (cls : String) : Prop :=
  ∀ c, c.status = .matched → c.pos ≤ c.str.length →
    (StartsWith D (c.str.drop c.pos) →
      Consumes p c (digitRun D (c.str.drop c.pos)) cls (withoutUnderscores (digitRun D (c.str.drop c.pos)))) ∧
    (¬ StartsWith D (c.str.drop c.pos) → Outcome.of (p c) = .unmatched)

theorem lexDigits_some {D : UInt8 → Bool} {s : Bytes} (h : StartsWith D s) :
    ∃ n, Lex.seq (Lex.byte D) (Lex.run (or_ D)) s = some n ∧ s.take n = digitRun D s := by
  obtain ⟨b, s', rfl, hb⟩ := h
  refine ⟨_, by simp only [Lex.seq, Lex.byte, hb, if_true, Lex.run, Option.map]; rfl, ?_⟩
  have : or_ D b = true := by simp [or_, hb]
  unfold digitRun
  rw [List.takeWhile_cons_of_pos this, Nat.add_comm, List.take_succ_cons]
  congr 1
  exact take_takeWhile _ _

theorem lexDigits_none {D : UInt8 → Bool} {s : Bytes} (h : ¬ StartsWith D s) : Lex.seq (Lex.byte D) (Lex.run (or_ D)) s = none := by
  cases s with
  | nil => rfl
  | cons b s =>
    have : D b = false := by
      cases hd : D b with
      | false => rfl
      | true => exact absurd ⟨b, s, rfl, hd⟩ h
    simp [Lex.seq, Lex.byte, this]

theorem digitLiteral_of {g : Gram} {D : UInt8 → Bool} {name : String} (h : Lexes (den env g) (Lex.seq (Lex.byte D) (Lex.run (or_ D)))) :
    DigitLiteral (den env (.trans g [.fn concat, .fn (changeClassName name)])) D name := by
  intro c hs hc
  have hk := lexes_consumes (name := name) h c hs hc
  constructor
  · intro hd
    obtain ⟨n, h1, h2⟩ := lexDigits_some hd
    have := (hk.1 n h1).2
    rwa [h2] at this
  · intro hd; exact hk.2 (lexDigits_none hd)

theorem byteLike_bin : ByteLike (den env (range 0x30 0x31)) binDigit byteVal :=
  byteLike_range binDigit (by decide) (fun b => by simp [binDigit, UInt8.le_iff_toNat_le]) rfl
theorem byteLike_oct : ByteLike (den env (range 0x30 0x37)) octDigit byteVal :=
  byteLike_range octDigit (by decide) (fun b => by simp [octDigit, UInt8.le_iff_toNat_le]) rfl
theorem byteLike_AF : ByteLike (den env (range 0x41 0x46)) (fun b => 0x41 ≤ b && b ≤ 0x46) byteVal :=
  byteLike_range _ (by decide) (fun b => by simp [UInt8.le_iff_toNat_le]) rfl
theorem byteLike_af : ByteLike (den env (range 0x61 0x66)) (fun b => 0x61 ≤ b && b ≤ 0x66) byteVal :=
  byteLike_range _ (by decide) (fun b => by simp [UInt8.le_iff_toNat_le]) rfl

theorem C46_binary : DigitLiteral (den env binaryNumberStr) binDigit ":extra:BinaryNumberStr" :=
  digitLiteral_of (lexes_digitLit byteLike_bin (byteLike_first2 byteLike_bin byteLike_underscore))

theorem C46_octal : DigitLiteral (den env octalNumberStr) octDigit ":extra:OctalNumberStr" :=
  digitLiteral_of (lexes_digitLit byteLike_oct (byteLike_first2 byteLike_oct byteLike_underscore))

theorem C46_hex : DigitLiteral (den env hexNumberStr) hexDigit ":extra:HexNumberStr" :=
  digitLiteral_of (lexes_digitLit
    (byteLike_or (by simp) (byteChoice_cons byteLike_number (byteChoice_cons byteLike_AF (byteChoice_cons byteLike_af byteChoice_nil fun _ => rfl)
      fun _ => rfl) fun b => by simp [hexDigit, Bool.or_assoc]))
    (byteLike_or (by simp) (byteChoice_cons byteLike_number (byteChoice_cons byteLike_AF (byteChoice_cons byteLike_af
      (byteChoice_cons byteLike_underscore byteChoice_nil fun _ => rfl) fun _ => rfl) fun _ => rfl) fun b => by simp [hexDigit, or_, Bool.or_assoc])))

theorem lexNat_some {s : Bytes} (h : StartsWith isDec s) : ∃ n, Lex.nat s = some n ∧ s.take n = natRun s := by
  unfold Lex.nat Lex.alt
  by_cases h0 : ∃ s', s = 0x30 :: s'
  · obtain ⟨s', rfl⟩ := h0
    refine ⟨_, by simp only [Lex.zero, Lex.seq, Lex.byte, Lex.run, Option.map, BEq.rfl, if_true]; rfl, ?_⟩
    unfold natRun
    rw [Nat.add_comm, List.take_succ_cons]
    congr 1
    exact take_takeWhile _ _
  · have hz : Lex.zero s = none := by
      obtain ⟨b, s', rfl, hb⟩ := h
      have : b ≠ 0x30 := fun he => h0 ⟨s', by rw [he]⟩
      simp [Lex.zero, Lex.seq, Lex.byte, this]
    rw [hz]
    obtain ⟨n, h1, h2⟩ := lexDigits_some h
    refine ⟨n, h1, ?_⟩
    rw [h2]
    unfold natRun
    split
    · exact absurd ⟨_, rfl⟩ h0
    · rfl

theorem lexNat_none {s : Bytes} (h : ¬ StartsWith isDec s) : Lex.nat s = none := by
  unfold Lex.nat Lex.alt
  have hz : Lex.zero s = none := by
    cases s with
    | nil => rfl
    | cons b s =>
      have : b ≠ 0x30 := fun he => h ⟨b, s, rfl, by rw [he]; decide⟩
      simp [Lex.zero, Lex.seq, Lex.byte, this]
  rw [hz]
  exact lexDigits_none h

theorem lexSign (s : Bytes) : ∃ n, (Lex.byte isSign).opt s = some n ∧ s.take n = signRun s ∧ n = (signRun s).length := by
  cases s with
  | nil => exact ⟨0, rfl, rfl, rfl⟩
  | cons b s =>
    unfold Lex.opt Lex.byte signRun
    by_cases hb : isSign b = true
    · simp only [hb, if_true]; exact ⟨1, rfl, rfl, rfl⟩
    · simp only [hb]; exact ⟨0, rfl, rfl, rfl⟩

/-- `IntegerNumberStr` matches iff, after an optional sign, a digit comes next. It consumes the sign and the maximal run
of digits and underscores, except that a leading `0` is only followed by underscores. -/
theorem C46_integer (c : Ctx) (hs : c.status = .matched) (hc : c.pos ≤ c.str.length) (s u : Bytes) (hsu : c.str.drop c.pos = s)
    (hu : u = s.drop (signRun s).length) :
    (StartsWith isDec u →
      Consumes (den env integerNumberStr) c (signRun s ++ natRun u) ":extra:IntegerNumberStr" (withoutUnderscores (signRun s ++ natRun u))) ∧
    (¬ StartsWith isDec u → Outcome.of (den env integerNumberStr c) = .unmatched) := by
  subst hsu
  have hk := lexes_consumes (env := env) (name := ":extra:IntegerNumberStr") lexes_integer c hs hc
  obtain ⟨k, h1, h2, h3⟩ := lexSign (c.str.drop c.pos)
  constructor
  · intro hd
    obtain ⟨n, h4, h5⟩ := lexNat_some hd
    have hl : Lex.integer (c.str.drop c.pos) = some (k + n) := by
      unfold Lex.integer Lex.seq
      rw [h1]; simp only
      rw [h3, ← hu, h4]; rfl
    have := (hk.1 _ hl).2
    rw [take_add_drop, h2, h3, ← hu, h5] at this
    exact this
  · intro hd
    refine hk.2 ?_
    unfold Lex.integer Lex.seq
    rw [h1]; simp only
    rw [h3, ← hu, lexNat_none hd]; rfl

/-! ### C47 -/

theorem flatten_singles (w : Bytes) : (w.flatMap fun b => [[b]]).flatten = w := by
  induction w with
  | nil => rfl
  | cons b w ih => simp [ih]

/-- The two parts of an identifier. -/
abbrev identParts : List Gram :=
  [Gram.one [.first [.prim alpha, .prim (charClass [b! "_", b! "$"])]], Gram.star [.first [.prim alnum, .prim (charClass [b! "_", b! "$"])]]]

/-- `AsciiIdentifierStr` matches iff a letter, `_` or `$` comes next, and yields the maximal run of letters, digits, `_`
and `$`. -/
theorem C47_identifier (c : Ctx) (hs : c.status = .matched) (hc : c.pos ≤ c.str.length) (s w : Bytes) (hsu : c.str.drop c.pos = s)
    (hw : w = s.takeWhile fun b => isDec b || isLetter b || isIdSign b) :
    (StartsWith (fun b => isLetter b || isIdSign b) s → Consumes (den env asciiIdentifierStr) c w ":extra:IdentifierStr" w) ∧
    (¬ StartsWith (fun b => isLetter b || isIdSign b) s → Outcome.of (den env asciiIdentifierStr c) = .unmatched) := by
  have hat := At.of hc hs
  rw [hsu] at hat
  have hone : ∀ {p : Sem} {B : UInt8 → Bool}, ByteLike p B byteVal → (∀ b, B b = true → b ≠ 0x5f) → ByteLike p B (fun b => [[b]]) :=
    fun h hb => h.congr (fun _ => rfl) fun b h1 => by simp [byteVal, hb b h1]
  have hsig : ByteLike (den env (.prim (charClass [b! "_", b! "$"]))) isIdSign (fun b => [[b]]) :=
    (byteLike_class [0x5f, 0x24]).congr (fun b => by rw [Bool.eq_iff_iff]; simp [isIdSign]) fun _ _ => rfl
  have hL : ∀ b, isLetter b = true → b ≠ 0x5f := fun b h he => by subst he; cases h
  have hD : ∀ b, (isDec b || isLetter b) = true → b ≠ 0x5f := fun b h he => by subst he; cases h
  have hA := hone (byteLike_alpha (env := env)) hL
  have hN := hone (byteLike_alnum (env := env)) hD
  have hfst : ByteLike (den env (.first [.prim alpha, .prim (charClass [b! "_", b! "$"])])) (fun b => isLetter b || isIdSign b) (fun b => [[b]]) :=
    byteLike_first (by simp) ⟨_, _, _, fun b => [[b]], hA, ⟨_, _, _, fun b => [[b]], hsig, fun _ => rfl, fun b => (Bool.or_false _).symm, fun b => by simp only [ite_self]⟩, fun _ => rfl,
      fun b => by simp only [ite_self]⟩
  have hrest : ByteLike (den env (.first [.prim alnum, .prim (charClass [b! "_", b! "$"])])) (fun b => isDec b || isLetter b || isIdSign b) (fun b => [[b]]) :=
    byteLike_first (by simp) ⟨_, _, _, fun b => [[b]], hN, ⟨_, _, _, fun b => [[b]], hsig, fun _ => rfl, fun b => (Bool.or_false _).symm, fun b => by simp only [ite_self]⟩, fun _ => rfl,
      fun b => by simp only [ite_self]⟩
  constructor
  · rintro ⟨b, s', rfl, hb⟩
    have hb2 : (isDec b || isLetter b || isIdSign b) = true := by
      rw [Bool.or_assoc]; simp only at hb; rw [hb, Bool.or_true]
    rw [List.takeWhile_cons_of_pos (p := fun b => isDec b || isLetter b || isIdSign b) hb2] at hw
    have h1 : Hits (den env (.flatGroup identParts)) (c.str.take c.pos) w
        (s'.dropWhile fun b => isDec b || isLetter b || isIdSign b) (Pieces w) := by
      rw [hw]
      refine (flat_hits (gs := identParts) (SeqHits.cons (w1 := [b]) (one_hits (gs := [.first [.prim alpha, .prim (charClass [b! "_", b! "$"])]]) (SeqHits.single (hfst.1 _ b _ hb)))
        (SeqHits.single (byteLike_star hrest _ s')))).mono fun l hl => ⟨_, both_texts hl, ?_⟩
      simp [flatten_singles]
    have h2 := trans_hits (env := env) (ts := [.fn concat, .fn (changeClassName ":extra:IdentifierStr")]) (by simp) h1
      (R := fun l => ∃ a, l = [a] ∧ a.cls = ":extra:IdentifierStr" ∧ a.ty = .string ∧ a.val = .str w) fun c' l hl => by
        obtain ⟨vs, hv, he⟩ := hl
        obtain ⟨l', e1, a, e2, e3, e4, e5, _⟩ := concat_named (env := env) (name := ":extra:IdentifierStr") c' l hv
        exact ⟨l', e1, a, e2, e3, e4, by rw [e5, he]⟩
    have hsplit : b :: s' = w ++ s'.dropWhile fun b => isDec b || isLetter b || isIdSign b := by
      rw [hw, List.cons_append, List.takeWhile_append_dropWhile]
    obtain ⟨o, e1, e2⟩ := h2 c (by rw [← hsplit]; exact hat)
    obtain ⟨new, e3, a, e4, e5⟩ := e2.stack
    refine ⟨o, a, e1, ?_, ?_, ?_, by rw [e3, e4], e5⟩
    · rw [e2.at_.str, List.append_assoc, ← hsplit]; exact hat.str.symm
    · rw [e2.at_.drop, hsu]; exact hsplit
    · rw [e2.at_.pos, List.length_append, List.length_take, Nat.min_eq_left hc]
  · intro h
    exact trans_misses (flat_misses (gs := identParts) (.head (one_misses (gs := [.first [.prim alpha, .prim (charClass [b! "_", b! "$"])]]) (.head (hfst.2 _ s fun b s' he => by
      cases hd : (isLetter b || isIdSign b) with
      | false => exact hd
      | true => exact absurd ⟨b, s', he, hd⟩ h))))) c hat

/-! ### C53 -/

theorem lex_seq_some {L M : Lex} {s : Bytes} {n : Nat} : Lex.seq L M s = some n ↔ ∃ a b, L s = some a ∧ M (s.drop a) = some b ∧ n = a + b := by
  unfold Lex.seq
  cases L s with
  | none => simp
  | some a =>
    simp only [Option.map_eq_some_iff, Option.some.injEq]
    constructor
    · rintro ⟨b, h1, h2⟩; exact ⟨a, b, rfl, h1, h2.symm⟩
    · rintro ⟨_, b, rfl, h1, h2⟩; exact ⟨b, h1, h2.symm⟩

theorem lex_alt_some {L M : Lex} {s : Bytes} {n : Nat} : Lex.alt L M s = some n ↔ L s = some n ∨ (L s = none ∧ M s = some n) := by
  unfold Lex.alt
  cases L s with
  | none => simp
  | some a => simp

theorem lex_opt_total (L : Lex) (s : Bytes) : ∃ n, L.opt s = some n := by
  unfold Lex.opt
  cases L s with
  | none => exact ⟨_, rfl⟩
  | some a => exact ⟨_, rfl⟩

theorem lex_byte_some {B : UInt8 → Bool} {s : Bytes} {n : Nat} : Lex.byte B s = some n ↔ n = 1 ∧ StartsWith B s := by
  unfold Lex.byte StartsWith
  cases s with
  | nil => simp
  | cons b s =>
    by_cases hb : B b = true
    · simp only [hb, if_true, Option.some.injEq]
      exact ⟨fun h => ⟨h.symm, b, s, rfl, hb⟩, fun h => h.1.symm⟩
    · simp [hb]

/-- The lexer of `NumericStr` takes what that of `IntegerNumberStr` takes, or more. -/
theorem lex_integer_numeric {s : Bytes} {n : Nat} (h : Lex.integer s = some n) : ∃ m, Lex.numeric s = some m ∧ n ≤ m := by
  obtain ⟨a, b, h1, h2, rfl⟩ := lex_seq_some.1 h
  obtain ⟨d, hd⟩ := lex_opt_total (Lex.seq (Lex.byte (· == 0x2e)) (Lex.run (or_ isDec))) ((s.drop a).drop b)
  obtain ⟨e, he⟩ := lex_opt_total Lex.expo ((s.drop a).drop (b + d))
  exact ⟨a + ((b + d) + e), lex_seq_some.2 ⟨a, _, h1, lex_seq_some.2 ⟨b + d, e, lex_alt_some.2 (.inl (lex_seq_some.2 ⟨b, d, h2, hd, rfl⟩)), he, rfl⟩, rfl⟩, by omega⟩

theorem lex_float_numeric {s : Bytes} {n : Nat} (h : Lex.float s = some n) : Lex.numeric s = some n := by
  obtain ⟨a, b, h1, h2, rfl⟩ := lex_seq_some.1 h
  refine lex_seq_some.2 ⟨a, b, h1, ?_, rfl⟩
  rcases lex_alt_some.1 h2 with h2 | ⟨h2n, h2⟩
  · obtain ⟨k, m, h3, h4, rfl⟩ := lex_seq_some.1 h2
    obtain ⟨d, e, h5, h6, rfl⟩ := lex_seq_some.1 h4
    rw [List.drop_drop] at h6
    refine lex_seq_some.2 ⟨k + d, e, lex_alt_some.2 (.inl (lex_seq_some.2 ⟨k, d, h3, ?_, rfl⟩)), h6, by omega⟩
    unfold Lex.opt; rw [h5]
  · rcases lex_alt_some.1 h2 with h2 | ⟨_, h2⟩
    · obtain ⟨k, m, h3, h4, rfl⟩ := lex_seq_some.1 h2
      obtain ⟨d, e, h5, h6, rfl⟩ := lex_seq_some.1 h4
      rw [List.drop_drop] at h6
      refine lex_seq_some.2 ⟨k + d, e, lex_alt_some.2 (.inr ⟨?_, lex_seq_some.2 ⟨k, d, h3, h5, rfl⟩⟩), h6, by omega⟩
      obtain ⟨_, x, s', hs, hx⟩ := lex_byte_some.1 h3
      have : Lex.nat (s.drop a) = none := lexNat_none fun ⟨y, s'', hs', hy⟩ => by
        rw [hs] at hs'; cases hs'
        rw [eq_of_beq hx] at hy; cases hy
      unfold Lex.seq; rw [this]
    · obtain ⟨k, m, h3, h4, rfl⟩ := lex_seq_some.1 h2
      have hopt : Lex.opt (Lex.seq (Lex.byte (· == 0x2e)) (Lex.run (or_ isDec))) ((s.drop a).drop k) = some 0 := by
        unfold Lex.opt
        cases hx : Lex.seq (Lex.byte (· == 0x2e)) (Lex.run (or_ isDec)) ((s.drop a).drop k) with
        | none => rfl
        | some d =>
          exfalso
          obtain ⟨e, he⟩ := lex_opt_total Lex.expo (((s.drop a).drop k).drop d)
          have : Lex.seq Lex.nat (Lex.seq (Lex.seq (Lex.byte (· == 0x2e)) (Lex.run (or_ isDec))) Lex.expo.opt) (s.drop a) = some (k + (d + e)) :=
            lex_seq_some.2 ⟨k, _, h3, lex_seq_some.2 ⟨d, e, hx, he, rfl⟩, rfl⟩
          rw [this] at h2n; cases h2n
      refine lex_seq_some.2 ⟨k + 0, m, lex_alt_some.2 (.inl (lex_seq_some.2 ⟨k, 0, h3, hopt, rfl⟩)), ?_, by omega⟩
      rw [Nat.add_zero]
      unfold Lex.opt; rw [h4]

/-- Wherever `IntegerNumberStr` matches, `NumericStr` does, and consumes at least as much. -/
theorem C53_integer_numeric (c o : Ctx) (hs : c.status = .matched) (hc : c.pos ≤ c.str.length)
    (h : Outcome.of (den env integerNumberStr c) = .matched o) :
    ∃ o', Outcome.of (den env numericStr c) = .matched o' ∧ o.pos ≤ o'.pos := by
  obtain ⟨n, h1, h2, h3, _⟩ := lexes_matched lexes_integer hs hc h
  obtain ⟨m, h4, h5⟩ := lex_integer_numeric h1
  obtain ⟨hm, o', a, e1, e2, e3, e4, e5⟩ := (lexes_consumes (env := env) (name := ":extra:NumericStr") lexes_numeric c hs hc).1 m h4
  refine ⟨o', e1, ?_⟩
  rw [h3, e4, List.length_take, Nat.min_eq_left hm]
  omega

/-- Wherever `FloatNumberStr` matches, `NumericStr` does, and consumes the same text with the same value. -/
theorem C53_float_numeric (c o : Ctx) (hs : c.status = .matched) (hc : c.pos ≤ c.str.length)
    (h : Outcome.of (den env floatNumberStr c) = .matched o) :
    ∃ o' a a', Outcome.of (den env numericStr c) = .matched o' ∧ o'.pos = o.pos ∧ o.stack = c.stack ++ [a] ∧ o'.stack = c.stack ++ [a'] ∧ a'.val = a.val := by
  obtain ⟨n, h1, h2, h3, a, h4, _, _, h5⟩ := lexes_matched lexes_float hs hc h
  obtain ⟨hm, o', a', e1, e2, e3, e4, e5, _, _, e6⟩ :=
    (lexes_consumes (env := env) (name := ":extra:NumericStr") lexes_numeric c hs hc).1 n (lex_float_numeric h1)
  refine ⟨o', a, a', e1, ?_, h4, e5, by rw [e6, h5]⟩
  rw [h3, e4, List.length_take, Nat.min_eq_left hm]

theorem mem_take_drop {s : Bytes} {a b : Nat} {x : UInt8} (h : x ∈ (s.drop a).take b) : x ∈ s.take (a + b) := by
  rw [take_add_drop]; simp [h]

theorem startsWith_mem {B : UInt8 → Bool} {s : Bytes} {n : Nat} (h : StartsWith B s) (hn : 0 < n) : ∃ x, x ∈ s.take n ∧ B x = true := by
  obtain ⟨b, s', rfl, hb⟩ := h
  obtain ⟨m, rfl⟩ : ∃ m, n = m + 1 := ⟨n - 1, by omega⟩
  exact ⟨b, by simp, hb⟩

/-- What `FloatNumberStr` consumes contains a point or an exponent, and so does its value. -/
theorem C53_float_form (c o : Ctx) (hs : c.status = .matched) (hc : c.pos ≤ c.str.length)
    (h : Outcome.of (den env floatNumberStr c) = .matched o) :
    ∃ a v, o.stack = c.stack ++ [a] ∧ a.ty = .string ∧ a.val = .str v ∧ (0x2e ∈ v ∨ 0x45 ∈ v ∨ 0x65 ∈ v) := by
  obtain ⟨n, h1, h2, h3, a, h4, _, h4', h5⟩ := lexes_matched lexes_float hs hc h
  refine ⟨a, _, h4, h4', h5, ?_⟩
  have key : ∃ x, x ∈ (c.str.drop c.pos).take n ∧ (x = 0x2e ∨ x = 0x45 ∨ x = 0x65) := by
    clear h2 h3 h5
    obtain ⟨a, b, h1, h2, rfl⟩ := lex_seq_some.1 h1
    suffices ∃ x, x ∈ ((c.str.drop c.pos).drop a).take b ∧ (x = 0x2e ∨ x = 0x45 ∨ x = 0x65) by
      obtain ⟨x, hx, h⟩ := this
      exact ⟨x, mem_take_drop hx, h⟩
    rcases lex_alt_some.1 h2 with h2 | ⟨_, h2⟩
    · obtain ⟨k, m, h3, h4, rfl⟩ := lex_seq_some.1 h2
      obtain ⟨d, e, h5, h6, rfl⟩ := lex_seq_some.1 h4
      obtain ⟨d1, d2, h7, h8, rfl⟩ := lex_seq_some.1 h5
      obtain ⟨rfl, h9⟩ := lex_byte_some.1 h7
      obtain ⟨x, hx, hb⟩ := startsWith_mem (n := 1 + d2 + e) h9 (by omega)
      exact ⟨x, mem_take_drop hx, .inl (by simpa using hb)⟩
    · rcases lex_alt_some.1 h2 with h2 | ⟨_, h2⟩
      · obtain ⟨k, m, h3, h4, rfl⟩ := lex_seq_some.1 h2
        obtain ⟨rfl, h9⟩ := lex_byte_some.1 h3
        obtain ⟨x, hx, hb⟩ := startsWith_mem (n := 1 + m) h9 (by omega)
        exact ⟨x, hx, .inl (by simpa using hb)⟩
      · obtain ⟨k, m, h3, h4, rfl⟩ := lex_seq_some.1 h2
        obtain ⟨d, e, h5, h6, rfl⟩ := lex_seq_some.1 h4
        obtain ⟨rfl, h9⟩ := lex_byte_some.1 h5
        obtain ⟨x, hx, hb⟩ := startsWith_mem (n := 1 + e) h9 (by omega)
        exact ⟨x, mem_take_drop hx, .inr (by simpa using hb)⟩
  obtain ⟨x, hx, he⟩ := key
  have : x ∈ withoutUnderscores ((c.str.drop c.pos).take n) := by
    unfold withoutUnderscores
    rw [List.mem_filter]
    refine ⟨hx, ?_⟩
    rcases he with rfl | rfl | rfl <;> rfl
  rcases he with rfl | rfl | rfl
  · exact .inl this
  · exact .inr (.inl this)
  · exact .inr (.inr this)

end

/-! ### Cases -/

/-- `1_01__2`: the `2` is not a binary digit. -/
example : Consumes (den noEnv binaryNumberStr) (newStrCtx (b! "1_01__2")) (b! "1_01__") ":extra:BinaryNumberStr" (b! "101") :=
  (C46_binary (env := noEnv) (newStrCtx (b! "1_01__2")) rfl (by decide)).1 ⟨0x31, _, rfl, rfl⟩

/-- `-1_0.5`: the integer ends before the point. -/
example : Consumes (den noEnv integerNumberStr) (newStrCtx (b! "-1_0.5")) (b! "-1_0") ":extra:IntegerNumberStr" (b! "-10") :=
  (C46_integer (env := noEnv) (newStrCtx (b! "-1_0.5")) rfl (by decide) _ _ rfl rfl).1 ⟨0x31, _, rfl, rfl⟩

/-- `007`: a leading zero stands alone. -/
example : Consumes (den noEnv integerNumberStr) (newStrCtx (b! "007")) (b! "0") ":extra:IntegerNumberStr" (b! "0") :=
  (C46_integer (env := noEnv) (newStrCtx (b! "007")) rfl (by decide) _ _ rfl rfl).1 ⟨0x30, _, rfl, rfl⟩

/-- `$a_1-b` -/
example : Consumes (den noEnv asciiIdentifierStr) (newStrCtx (b! "$a_1-b")) (b! "$a_1") ":extra:IdentifierStr" (b! "$a_1") :=
  (C47_identifier (env := noEnv) (newStrCtx (b! "$a_1-b")) rfl (by decide) _ _ rfl rfl).1 ⟨0x24, _, rfl, rfl⟩

/-- `.5e-3` is a float. -/
example : ∃ o, Outcome.of (den noEnv floatNumberStr (newStrCtx (b! ".5e-3x"))) = .matched o ∧ o.pos = 5 := by
  obtain ⟨_, o, _, e1, e2, e3, e4, _⟩ :=
    (lexes_consumes (env := noEnv) (name := ":extra:FloatNumberStr") lexes_float (newStrCtx (b! ".5e-3x")) rfl (by decide)).1 5 rfl
  exact ⟨o, e1, e4⟩

end Takenoco
